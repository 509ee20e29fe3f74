import Verif.Model.Nuclide
import Verif.Spec.Order

/-! ## C88 — elements, isotopes and nuclides as keys of ordered and hashed containers -/
namespace PNDL

theorem C88_element : Spec.MapKey Element.lt Element.eq := by
  refine ⟨?_, ?_, ?_, ?_⟩
  · rintro ⟨a⟩; simp [Element.lt]
  · rintro ⟨a⟩ ⟨b⟩ ⟨c⟩; simp only [Element.lt, decide_eq_true_eq]; omega
  · rintro ⟨a⟩ ⟨b⟩; simp only [Element.lt, decide_eq_true_eq, Element.mk.injEq]; omega
  · rintro ⟨a⟩ ⟨b⟩; simp [Element.eq]

/-- The documented order: by atomic number, then by mass number. -/
theorem C88_isotope_lt (a b : Isotope) :
    a.lt b = true ↔ a.element.Z < b.element.Z ∨ (a.element.Z = b.element.Z ∧ a.A < b.A) := by
  unfold Isotope.lt Isotope.Z
  split_ifs <;> simp <;> omega

theorem C88_isotope : Spec.MapKey Isotope.lt Isotope.eq := by
  have key := C88_isotope_lt
  refine ⟨?_, ?_, ?_, ?_⟩
  · intro a; cases h : a.lt a
    · rfl
    · have := (key a a).mp h; omega
  · intro a b c; simp only [key]; omega
  · rintro ⟨⟨z⟩, a⟩ ⟨⟨z'⟩, a'⟩; simp only [key, Isotope.mk.injEq, Element.mk.injEq]; omega
  · rintro ⟨⟨z⟩, a⟩ ⟨⟨z'⟩, a'⟩; simp only [Isotope.eq, Isotope.Z, Isotope.mk.injEq, Element.mk.injEq]; simp [and_assoc]

/-- The documented order: by atomic number, then by mass number, then by isomer level. -/
theorem C88_nuclide_lt (a b : Nuclide) :
    a.lt b = true ↔ a.isotope.element.Z < b.isotope.element.Z ∨ (a.isotope.element.Z = b.isotope.element.Z ∧
      (a.isotope.A < b.isotope.A ∨ (a.isotope.A = b.isotope.A ∧ a.level < b.level))) := by
  unfold Nuclide.lt Isotope.Z
  split_ifs <;> simp <;> omega

theorem C88_nuclide : Spec.MapKey Nuclide.lt Nuclide.eq := by
  have key := C88_nuclide_lt
  refine ⟨?_, ?_, ?_, ?_⟩
  · intro a; cases h : a.lt a
    · rfl
    · have := (key a a).mp h; omega
  · intro a b c; simp only [key]; omega
  · rintro ⟨⟨⟨z⟩, a⟩, l⟩ ⟨⟨⟨z'⟩, a'⟩, l'⟩
    simp only [key, Nuclide.mk.injEq, Isotope.mk.injEq, Element.mk.injEq]; omega
  · rintro ⟨⟨⟨z⟩, a⟩, l⟩ ⟨⟨⟨z'⟩, a'⟩, l'⟩; simp only [Nuclide.eq, Isotope.Z, Nuclide.mk.injEq, Isotope.mk.injEq, Element.mk.injEq, and_assoc]; simp [and_assoc]

/-- Equal keys have equal hashes, whatever the hash of an integer is. -/
theorem C88_hash (h : Nat → Nat) :
    (∀ a b : Element, a.eq b = true → a.hash h = b.hash h) ∧
    (∀ a b : Isotope, a.eq b = true → a.hash h = b.hash h) ∧
    (∀ a b : Nuclide, a.eq b = true → a.hash h = b.hash h) :=
  ⟨fun a b e => by rw [(C88_element.2.2.2 a b).mp e], fun a b e => by rw [(C88_isotope.2.2.2 a b).mp e],
   fun a b e => by rw [(C88_nuclide.2.2.2 a b).mp e]⟩

/-- Sorting nuclides of the accepted domain by `operator<` sorts them by `(Z, A, level)` read as one number. -/
theorem C88_nuclide_numeric (a b : Nuclide) (ha : a.isotope.A < 300) (hb : b.isotope.A < 300) (la : a.level ≤ 2) (lb : b.level ≤ 2) :
    a.lt b = true ↔
      (a.isotope.element.Z * 300 + a.isotope.A) * 3 + a.level < (b.isotope.element.Z * 300 + b.isotope.A) * 3 + b.level := by
  rw [C88_nuclide_lt]; omega

example : (⟨⟨⟨95⟩, 242⟩, 0⟩ : Nuclide).lt ⟨⟨⟨95⟩, 242⟩, 1⟩ = true ∧ (⟨⟨⟨95⟩, 242⟩, 1⟩ : Nuclide).lt ⟨⟨⟨95⟩, 243⟩, 0⟩ = true := by decide

end PNDL
