/-! GENERATED from src/element.cpp:76-194 (the 118 entries of `Element::elements_table`), one row per element in order of Z. -/
namespace PNDL

/-- Models `Element::Info` (include/PapillonNDL/element.hpp:126-130); strings are lists of characters. -/
structure ElemInfo where
  name : List Char
  symbol : List Char
  largest : Nat
  deriving DecidableEq, Repr

/-- Models `Element::elements_table` (src/element.cpp:77-194). -/
def elementsTable : List ElemInfo := [
  ⟨['H', 'y', 'd', 'r', 'o', 'g', 'e', 'n'], ['H'], 7⟩,
  ⟨['H', 'e', 'l', 'i', 'u', 'm'], ['H', 'e'], 10⟩,
  ⟨['L', 'i', 't', 'h', 'i', 'u', 'm'], ['L', 'i'], 13⟩,
  ⟨['B', 'e', 'r', 'y', 'l', 'l', 'i', 'u', 'm'], ['B', 'e'], 16⟩,
  ⟨['B', 'o', 'r', 'o', 'n'], ['B'], 21⟩,
  ⟨['C', 'a', 'r', 'b', 'o', 'n'], ['C'], 23⟩,
  ⟨['N', 'i', 't', 'r', 'o', 'g', 'e', 'n'], ['N'], 25⟩,
  ⟨['O', 'x', 'y', 'g', 'e', 'n'], ['O'], 28⟩,
  ⟨['F', 'l', 'o', 'u', 'r', 'i', 'n', 'e'], ['F'], 31⟩,
  ⟨['N', 'e', 'o', 'n'], ['N', 'e'], 34⟩,
  ⟨['S', 'o', 'd', 'i', 'u', 'm'], ['N', 'a'], 37⟩,
  ⟨['M', 'a', 'g', 'n', 'e', 's', 'i', 'u', 'm'], ['M', 'g'], 40⟩,
  ⟨['A', 'l', 'u', 'm', 'i', 'n', 'u', 'm'], ['A', 'l'], 43⟩,
  ⟨['S', 'i', 'l', 'i', 'c', 'o', 'n'], ['S', 'i'], 45⟩,
  ⟨['P', 'h', 'o', 's', 'p', 'h', 'o', 'r', 'u', 's'], ['P'], 47⟩,
  ⟨['S', 'u', 'l', 'f', 'u', 'r'], ['S'], 49⟩,
  ⟨['C', 'h', 'l', 'o', 'r', 'i', 'n', 'e'], ['C', 'l'], 51⟩,
  ⟨['A', 'r', 'g', 'o', 'n'], ['A', 'r'], 53⟩,
  ⟨['P', 'o', 't', 'a', 's', 's', 'i', 'u', 'm'], ['K'], 56⟩,
  ⟨['C', 'a', 'l', 'c', 'i', 'u', 'm'], ['C', 'a'], 58⟩,
  ⟨['S', 'c', 'a', 'n', 'd', 'i', 'u', 'm'], ['S', 'c'], 61⟩,
  ⟨['T', 'i', 't', 'a', 'n', 'i', 'u', 'm'], ['T', 'i'], 63⟩,
  ⟨['V', 'a', 'n', 'a', 'd', 'i', 'u', 'm'], ['V'], 66⟩,
  ⟨['C', 'h', 'r', 'o', 'm', 'i', 'u', 'm'], ['C', 'r'], 68⟩,
  ⟨['M', 'a', 'n', 'g', 'a', 'n', 'e', 's', 'e'], ['M', 'n'], 71⟩,
  ⟨['I', 'r', 'o', 'n'], ['F', 'e'], 74⟩,
  ⟨['C', 'o', 'b', 'a', 'l', 't'], ['C', 'o'], 76⟩,
  ⟨['N', 'i', 'c', 'k', 'e', 'l'], ['N', 'i'], 79⟩,
  ⟨['C', 'o', 'p', 'p', 'e', 'r'], ['C', 'u'], 82⟩,
  ⟨['Z', 'i', 'n', 'c'], ['Z', 'n'], 85⟩,
  ⟨['G', 'a', 'l', 'l', 'i', 'u', 'm'], ['G', 'a'], 87⟩,
  ⟨['G', 'e', 'r', 'm', 'a', 'n', 'i', 'u', 'm'], ['G', 'e'], 90⟩,
  ⟨['A', 'r', 's', 'e', 'n', 'i', 'c'], ['A', 's'], 92⟩,
  ⟨['S', 'e', 'l', 'e', 'n', 'i', 'u', 'm'], ['S', 'e'], 95⟩,
  ⟨['B', 'r', 'o', 'm', 'i', 'n', 'e'], ['B', 'r'], 98⟩,
  ⟨['K', 'r', 'y', 'p', 't', 'o', 'n'], ['K', 'r'], 101⟩,
  ⟨['R', 'u', 'b', 'i', 'd', 'i', 'u', 'm'], ['R', 'b'], 103⟩,
  ⟨['S', 't', 'r', 'o', 'n', 't', 'i', 'u', 'm'], ['S', 'r'], 107⟩,
  ⟨['Y', 't', 't', 'r', 'i', 'u', 'm'], ['Y'], 109⟩,
  ⟨['Z', 'i', 'r', 'c', 'o', 'n', 'i', 'u', 'm'], ['Z', 'r'], 112⟩,
  ⟨['N', 'i', 'o', 'b', 'i', 'u', 'm'], ['N', 'b'], 115⟩,
  ⟨['M', 'o', 'l', 'b', 'd', 'e', 'n', 'u', 'm'], ['M', 'o'], 117⟩,
  ⟨['T', 'e', 'c', 'h', 'n', 'e', 't', 'i', 'u', 'm'], ['T', 'c'], 120⟩,
  ⟨['R', 'u', 't', 'h', 'e', 'n', 'i', 'u', 'm'], ['R', 'u'], 124⟩,
  ⟨['R', 'h', 'o', 'd', 'i', 'u', 'm'], ['R', 'h'], 126⟩,
  ⟨['P', 'a', 'l', 'l', 'a', 'd', 'i', 'u', 'm'], ['P', 'd'], 128⟩,
  ⟨['S', 'i', 'l', 'v', 'e', 'r'], ['A', 'g'], 130⟩,
  ⟨['C', 'a', 'd', 'm', 'i', 'u', 'm'], ['C', 'd'], 133⟩,
  ⟨['I', 'n', 'd', 'i', 'u', 'm'], ['I', 'n'], 135⟩,
  ⟨['T', 'i', 'n'], ['S', 'n'], 138⟩,
  ⟨['A', 'n', 't', 'i', 'm', 'o', 'n', 'y'], ['S', 'b'], 140⟩,
  ⟨['T', 'e', 'l', 'l', 'u', 'r', 'i', 'u', 'm'], ['T', 'e'], 143⟩,
  ⟨['I', 'o', 'd', 'i', 'n', 'e'], ['I'], 145⟩,
  ⟨['X', 'e', 'n', 'o', 'n'], ['X', 'e'], 148⟩,
  ⟨['C', 'e', 's', 'i', 'u', 'm'], ['C', 's'], 151⟩,
  ⟨['B', 'a', 'r', 'i', 'u', 'm'], ['B', 'a'], 153⟩,
  ⟨['L', 'a', 'n', 't', 'h', 'a', 'n', 'u', 'm'], ['L', 'a'], 155⟩,
  ⟨['C', 'e', 'r', 'i', 'u', 'm'], ['C', 'e'], 157⟩,
  ⟨['P', 'r', 'a', 's', 'e', 'o', 'd', 'y', 'm', 'i', 'u', 'm'], ['P', 'r'], 159⟩,
  ⟨['N', 'e', 'o', 'd', 'y', 'm', 'i', 'u', 'm'], ['N', 'd'], 161⟩,
  ⟨['P', 'r', 'o', 'm', 'e', 't', 'h', 'i', 'u', 'm'], ['P', 'm'], 163⟩,
  ⟨['S', 'a', 'm', 'a', 'r', 'i', 'u', 'm'], ['S', 'm'], 165⟩,
  ⟨['E', 'u', 'r', 'o', 'p', 'i', 'u', 'm'], ['E', 'u'], 167⟩,
  ⟨['G', 'a', 'd', 'o', 'l', 'i', 'n', 'i', 'u', 'm'], ['G', 'd'], 169⟩,
  ⟨['T', 'e', 'r', 'b', 'i', 'u', 'm'], ['T', 'b'], 171⟩,
  ⟨['D', 'y', 's', 'p', 'r', 'o', 's', 'i', 'u', 'm'], ['D', 'y'], 173⟩,
  ⟨['H', 'o', 'l', 'm', 'i', 'u', 'm'], ['H', 'o'], 175⟩,
  ⟨['E', 'r', 'b', 'i', 'u', 'm'], ['E', 'r'], 177⟩,
  ⟨['T', 'h', 'u', 'l', 'i', 'u', 'm'], ['T', 'm'], 179⟩,
  ⟨['Y', 't', 't', 'e', 'r', 'b', 'i', 'u', 'm'], ['Y', 'b'], 181⟩,
  ⟨['L', 'u', 't', 'e', 't', 'i', 'u', 'm'], ['L', 'u'], 185⟩,
  ⟨['H', 'a', 'f', 'n', 'i', 'u', 'm'], ['H', 'f'], 189⟩,
  ⟨['T', 'a', 'n', 't', 'a', 'l', 'u', 'm'], ['T', 'a'], 192⟩,
  ⟨['T', 'u', 'n', 'g', 's', 't', 'e', 'n'], ['W'], 194⟩,
  ⟨['R', 'h', 'e', 'n', 'i', 'u', 'm'], ['R', 'e'], 198⟩,
  ⟨['O', 's', 'm', 'i', 'u', 'm'], ['O', 's'], 202⟩,
  ⟨['I', 'r', 'i', 'd', 'i', 'u', 'm'], ['I', 'r'], 204⟩,
  ⟨['P', 'l', 'a', 't', 'i', 'n', 'u', 'm'], ['P', 't'], 206⟩,
  ⟨['G', 'o', 'l', 'd'], ['A', 'u'], 210⟩,
  ⟨['M', 'e', 'r', 'c', 'u', 'r', 'y'], ['H', 'g'], 216⟩,
  ⟨['T', 'h', 'a', 'l', 'l', 'i', 'u', 'm'], ['T', 'l'], 218⟩,
  ⟨['L', 'e', 'a', 'd'], ['P', 'b'], 220⟩,
  ⟨['B', 'i', 's', 'm', 'u', 't', 'h'], ['B', 'i'], 224⟩,
  ⟨['P', 'o', 'l', 'o', 'n', 'i', 'u', 'm'], ['P', 'o'], 227⟩,
  ⟨['A', 's', 't', 'a', 't', 'i', 'n', 'e'], ['A', 't'], 229⟩,
  ⟨['R', 'a', 'd', 'o', 'n'], ['R', 'n'], 231⟩,
  ⟨['F', 'r', 'a', 'n', 'c', 'i', 'u', 'm'], ['F', 'r'], 233⟩,
  ⟨['R', 'a', 'd', 'i', 'u', 'm'], ['R', 'a'], 235⟩,
  ⟨['A', 'c', 't', 'i', 'n', 'i', 'u', 'm'], ['A', 'c'], 237⟩,
  ⟨['T', 'h', 'o', 'r', 'i', 'u', 'm'], ['T', 'h'], 239⟩,
  ⟨['P', 'r', 'o', 't', 'a', 'c', 't', 'i', 'n', 'i', 'u', 'm'], ['P', 'a'], 241⟩,
  ⟨['U', 'r', 'a', 'n', 'i', 'u', 'm'], ['U'], 243⟩,
  ⟨['N', 'e', 'p', 't', 'u', 'n', 'i', 'u', 'm'], ['N', 'p'], 245⟩,
  ⟨['P', 'l', 'u', 't', 'o', 'n', 'i', 'u', 'm'], ['P', 'u'], 247⟩,
  ⟨['A', 'm', 'e', 'r', 'i', 'c', 'i', 'u', 'm'], ['A', 'm'], 249⟩,
  ⟨['C', 'u', 'r', 'i', 'u', 'm'], ['C', 'm'], 252⟩,
  ⟨['B', 'e', 'r', 'k', 'e', 'l', 'i', 'u', 'm'], ['B', 'k'], 254⟩,
  ⟨['C', 'a', 'l', 'i', 'f', 'o', 'r', 'n', 'i', 'u', 'm'], ['C', 'f'], 256⟩,
  ⟨['E', 'i', 'n', 's', 't', 'e', 'i', 'n', 'i', 'u', 'm'], ['E', 's'], 258⟩,
  ⟨['F', 'e', 'r', 'm', 'i', 'u', 'm'], ['F', 'm'], 260⟩,
  ⟨['M', 'e', 'n', 'd', 'e', 'l', 'e', 'v', 'i', 'u', 'm'], ['M', 'd'], 262⟩,
  ⟨['N', 'o', 'b', 'e', 'l', 'i', 'u', 'm'], ['N', 'o'], 264⟩,
  ⟨['L', 'a', 'w', 'r', 'e', 'n', 'c', 'i', 'u', 'm'], ['L', 'r'], 266⟩,
  ⟨['R', 'u', 't', 'h', 'e', 'r', 'f', 'o', 'r', 'd', 'i', 'u', 'm'], ['R', 'f'], 268⟩,
  ⟨['D', 'u', 'b', 'n', 'i', 'u', 'm'], ['D', 'b'], 270⟩,
  ⟨['S', 'e', 'a', 'b', 'o', 'r', 'g', 'i', 'u', 'm'], ['S', 'g'], 273⟩,
  ⟨['B', 'o', 'h', 'r', 'i', 'u', 'm'], ['B', 'h'], 275⟩,
  ⟨['H', 'a', 's', 's', 'i', 'u', 'm'], ['H', 's'], 277⟩,
  ⟨['M', 'e', 'i', 't', 'n', 'e', 'r', 'i', 'u', 'm'], ['M', 't'], 279⟩,
  ⟨['D', 'a', 'r', 'm', 's', 't', 'a', 'd', 't', 'i', 'u', 'm'], ['D', 's'], 281⟩,
  ⟨['R', 'o', 'e', 'n', 't', 'g', 'e', 'n', 'i', 'u', 'm'], ['R', 'g'], 283⟩,
  ⟨['C', 'o', 'p', 'e', 'r', 'n', 'i', 'c', 'i', 'u', 'm'], ['C', 'n'], 285⟩,
  ⟨['N', 'i', 'h', 'o', 'n', 'i', 'u', 'm'], ['N', 'h'], 287⟩,
  ⟨['F', 'l', 'e', 'r', 'o', 'v', 'i', 'u', 'm'], ['F', 'l'], 289⟩,
  ⟨['M', 'o', 's', 'c', 'o', 'v', 'i', 'u', 'm'], ['M', 'c'], 291⟩,
  ⟨['L', 'i', 'v', 'e', 'r', 'm', 'o', 'r', 'i', 'u', 'm'], ['L', 'v'], 293⟩,
  ⟨['T', 'e', 'n', 'n', 'e', 's', 's', 'i', 'n', 'e'], ['T', 's'], 294⟩,
  ⟨['O', 'g', 'a', 'n', 'e', 's', 's', 'o', 'n'], ['O', 'g'], 295⟩]

end PNDL
