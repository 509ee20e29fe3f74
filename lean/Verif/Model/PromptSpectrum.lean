import Verif.Model.NucAce

/-! The prompt fission spectrum of a nuclide as the distribution it is used as: `Fission::prompt_spectrum` (fission.hpp, src/fission.cpp) over
`SummedFissionSpectrum` (src/summed_fission_spectrum.cpp). -/
namespace PNDL

/-- What `SummedFissionSpectrum` uses of a reaction: `threshold()`, `xs()` and `neutron_distribution()` (src/summed_fission_spectrum.cpp:58-61,
82-89). -/
noncomputable def STRxn.part (r : STRxn) (fuel : Nat) : FisPart := ⟨r.threshold, r.xs, r.base.dist.toAE fuel⟩

/-- `SummedFissionSpectrum(mt19, mt20, mt21, mt38)` (src/summed_fission_spectrum.cpp:30-48); `g` is the energy grid of the cross section of the
first reaction, that is of the nuclide the reactions were made for. -/
noncomputable def STRxn.summed (g : EGrid) (fuel : Nat) (a b c d : STRxn) : SFS := ⟨g, a.part fuel, b.part fuel, c.part fuel, d.part fuel⟩

/-- `SummedFissionSpectrum` as an `AngleEnergy` (src/summed_fission_spectrum.cpp:71-172). -/
noncomputable def SFS.toAE (s : SFS) : AE :=
  ⟨s.sample, fun E mu => s.density E fun d => d.anglePdf E mu, fun E mu x => s.density E fun d => d.pdf E mu x⟩

/-- `prompt_spectrum()` (fission.hpp:81, src/fission.cpp:176-188): the distribution of MT 18, the summed spectrum, or `Absorption(18)`. -/
noncomputable def Prompt.toAE (g : EGrid) (fuel : Nat) : Prompt → AE
  | .absorption => (NDist.absorption 18).toAE fuel
  | .mt18 d => d.toAE fuel
  | .summed a b c d => (STRxn.summed g fuel a b c d).toAE

/-- `nuclide.fission().prompt_spectrum()`.  Simplification: only for files that are fissile, where the reactions of the spectrum are those of this
nuclide (src/fission.cpp:249-265); a nuclide made from a file without fission keeps the spectrum of the nuclide it shares, whose grid is not
this one's (src/fission.cpp:210-211). -/
noncomputable def Nuc.promptSpectrum (n : Nuc) (fuel : Nat) : AE := n.fission.spectrum.toAE n.grid fuel

end PNDL
