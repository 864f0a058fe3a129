/-!
# The option tables of the code (`EnumStringMap` objects in /repo/jdftx)

Generated from the source text: one definition per name table, entries in source order. Enumerators are
numbered by first occurrence in the table (two different enumerator names are taken to be different values);
names are lists of characters. Left out: tables of descriptions (never parsed), `orbitalDescMap`
(electronic/DOS.cpp:92, enumerator is a struct) and the macro-generated van der Waals tables
(electronic/VanDerWaalsD3_data.h:110,119).
-/
namespace Jdftx.EnumMap

/-- jdftx/commands/command.h:119-119 `boolMap`. -/
def t_boolMap : List (Nat × List Char) :=
  [(0, ['n', 'o']),
   (1, ['y', 'e', 's'])]

/-- jdftx/commands/coulomb_interaction.cpp:23-29 `exRegMethodMap`. -/
def t_exRegMethodMap : List (Nat × List Char) :=
  [(0, ['N', 'o', 'n', 'e']),
   (1, ['A', 'u', 'x', 'i', 'l', 'i', 'a', 'r', 'y', 'F', 'u', 'n', 'c', 't', 'i', 'o', 'n']),
   (2, ['P', 'r', 'o', 'b', 'e', 'C', 'h', 'a', 'r', 'g', 'e', 'E', 'w', 'a', 'l', 'd']),
   (3, ['S', 'p', 'h', 'e', 'r', 'i', 'c', 'a', 'l', 'T', 'r', 'u', 'n', 'c', 'a', 't', 'e', 'd']),
   (4, ['W', 'i', 'g', 'n', 'e', 'r', 'S', 'e', 'i', 't', 'z', 'T', 'r', 'u', 'n', 'c', 'a', 't', 'e', 'd'])]

/-- jdftx/commands/coulomb_interaction.cpp:31-38 `truncationTypeMap`. -/
def t_truncationTypeMap : List (Nat × List Char) :=
  [(0, ['P', 'e', 'r', 'i', 'o', 'd', 'i', 'c']),
   (1, ['S', 'l', 'a', 'b']),
   (2, ['C', 'y', 'l', 'i', 'n', 'd', 'r', 'i', 'c', 'a', 'l']),
   (3, ['W', 'i', 'r', 'e']),
   (4, ['I', 's', 'o', 'l', 'a', 't', 'e', 'd']),
   (5, ['S', 'p', 'h', 'e', 'r', 'i', 'c', 'a', 'l'])]

/-- jdftx/commands/coulomb_interaction.cpp:40-44 `truncationDirMap`. -/
def t_truncationDirMap : List (Nat × List Char) :=
  [(0, ['1', '0', '0']),
   (1, ['0', '1', '0']),
   (2, ['0', '0', '1'])]

/-- jdftx/commands/coulomb_interaction.cpp:245-248 `epmMap`. -/
def t_epmMap : List (Nat × List Char) :=
  [(0, ['b', 'l', 'o', 'c', 'k', 'S', 'i', 'z', 'e']),
   (1, ['n', 'O', 'u', 't', 'e', 'r', 'V', 'x', 'x'])]

/-- jdftx/commands/debug.cpp:35-43 `debugMap`. -/
def t_debugMap : List (Nat × List Char) :=
  [(0, ['E', 'i', 'g', 's', 'F', 'i', 'l', 'l', 'i', 'n', 'g', 's']),
   (1, ['E', 'c', 'o', 'm', 'p', 'o', 'n', 'e', 'n', 't', 's']),
   (2, ['M', 'u', 'S', 'e', 'a', 'r', 'c', 'h']),
   (3, ['K', 'p', 'o', 'i', 'n', 't', 's', 'B', 'a', 's', 'i', 's']),
   (4, ['F', 'o', 'r', 'c', 'e', 's']),
   (5, ['S', 'y', 'm', 'm', 'e', 't', 'r', 'i', 'e', 's']),
   (6, ['F', 'l', 'u', 'i', 'd'])]

/-- jdftx/commands/density_of_states.cpp:26-35 `weightTypeMap`. -/
def t_weightTypeMap : List (Nat × List Char) :=
  [(0, ['T', 'o', 't', 'a', 'l']),
   (1, ['S', 'l', 'i', 'c', 'e']),
   (2, ['S', 'p', 'h', 'e', 'r', 'e']),
   (3, ['A', 't', 'o', 'm', 'S', 'l', 'i', 'c', 'e']),
   (4, ['A', 't', 'o', 'm', 'S', 'p', 'h', 'e', 'r', 'e']),
   (5, ['F', 'i', 'l', 'e']),
   (6, ['O', 'r', 'b', 'i', 't', 'a', 'l']),
   (7, ['O', 'r', 't', 'h', 'o', 'O', 'r', 'b', 'i', 't', 'a', 'l'])]

/-- jdftx/commands/dump.cpp:54-63 `varInitMap`. -/
def t_varInitMap : List (Nat × List Char) :=
  [(0, ['N', 'o', 'n', 'e']),
   (1, ['I', 'o', 'n', 'i', 'c', 'P', 'o', 's', 'i', 't', 'i', 'o', 'n', 's']),
   (2, ['L', 'a', 't', 't', 'i', 'c', 'e']),
   (3, ['C', 'o', 'r', 'e', 'D', 'e', 'n', 's', 'i', 't', 'y']),
   (4, ['V', 'l', 'o', 'c', 'p', 's']),
   (5, ['S', 'y', 'm', 'm', 'e', 't', 'r', 'i', 'e', 's']),
   (6, ['K', 'p', 'o', 'i', 'n', 't', 's']),
   (7, ['G', 'v', 'e', 'c', 't', 'o', 'r', 's'])]

/-- jdftx/commands/dump.cpp:65-72 `freqMap`. -/
def t_freqMap : List (Nat × List Char) :=
  [(0, ['E', 'n', 'd']),
   (1, ['I', 'n', 'i', 't']),
   (2, ['I', 'o', 'n', 'i', 'c']),
   (3, ['G', 'u', 'm', 'm', 'e', 'l']),
   (4, ['F', 'l', 'u', 'i', 'd']),
   (5, ['E', 'l', 'e', 'c', 't', 'r', 'o', 'n', 'i', 'c'])]

/-- jdftx/commands/dump.cpp:83-146 `varMap`. -/
def t_varMap : List (Nat × List Char) :=
  [(0, ['N', 'o', 'n', 'e']),
   (1, ['S', 't', 'a', 't', 'e']),
   (2, ['I', 'o', 'n', 'i', 'c', 'P', 'o', 's', 'i', 't', 'i', 'o', 'n', 's']),
   (3, ['F', 'o', 'r', 'c', 'e', 's']),
   (4, ['L', 'a', 't', 't', 'i', 'c', 'e']),
   (5, ['I', 'o', 'n', 'i', 'c', 'D', 'e', 'n', 's', 'i', 't', 'y']),
   (6, ['E', 'l', 'e', 'c', 'D', 'e', 'n', 's', 'i', 't', 'y']),
   (7, ['E', 'l', 'e', 'c', 'D', 'e', 'n', 's', 'i', 't', 'y', 'A', 'c', 'c', 'u', 'm']),
   (8, ['C', 'o', 'r', 'e', 'D', 'e', 'n', 's', 'i', 't', 'y']),
   (9, ['K', 'E', 'd', 'e', 'n', 's', 'i', 't', 'y']),
   (10, ['F', 'l', 'u', 'i', 'd', 'D', 'e', 'n', 's', 'i', 't', 'y']),
   (11, ['D', 'v', 'a', 'c']),
   (12, ['D', 'f', 'l', 'u', 'i', 'd']),
   (13, ['D', 't', 'o', 't']),
   (14, ['V', 'c', 'a', 'v', 'i', 't', 'y']),
   (15, ['V', 'f', 'l', 'u', 'i', 'd', 'T', 'o', 't']),
   (16, ['V', 'l', 'o', 'c', 'p', 's']),
   (17, ['V', 's', 'c', 'l', 'o', 'c']),
   (18, ['B', 'a', 'n', 'd', 'E', 'i', 'g', 's']),
   (19, ['B', 'a', 'n', 'd', 'P', 'r', 'o', 'j', 'e', 'c', 't', 'i', 'o', 'n', 's']),
   (20, ['E', 'i', 'g', 'S', 't', 'a', 't', 's']),
   (21, ['F', 'i', 'l', 'l', 'i', 'n', 'g', 's']),
   (22, ['R', 'h', 'o', 'A', 't', 'o', 'm']),
   (23, ['B', 'a', 'n', 'd', 'U', 'n', 'f', 'o', 'l', 'd']),
   (24, ['E', 'c', 'o', 'm', 'p', 'o', 'n', 'e', 'n', 't', 's']),
   (25, ['E', 'x', 'c', 'C', 'o', 'm', 'p', 'a', 'r', 'e']),
   (26, ['B', 'o', 'u', 'n', 'd', 'C', 'h', 'a', 'r', 'g', 'e']),
   (27, ['S', 'o', 'l', 'v', 'a', 't', 'i', 'o', 'n', 'R', 'a', 'd', 'i', 'i']),
   (28, ['Q', 'M', 'C']),
   (29, ['O', 'c', 'e', 'a', 'n']),
   (30, ['B', 'G', 'W']),
   (31, ['R', 'e', 'a', 'l', 'S', 'p', 'a', 'c', 'e', 'W', 'f', 'n', 's']),
   (32, ['F', 'l', 'u', 'i', 'd', 'D', 'e', 'b', 'u', 'g']),
   (33, ['S', 'l', 'a', 'b', 'E', 'p', 's', 'i', 'l', 'o', 'n']),
   (34, ['B', 'u', 'l', 'k', 'E', 'p', 's', 'i', 'l', 'o', 'n']),
   (35, ['C', 'h', 'a', 'r', 'g', 'e', 'd', 'D', 'e', 'f', 'e', 'c', 't']),
   (36, ['D', 'O', 'S']),
   (37, ['S', 'e', 'l', 'f', 'I', 'n', 't', 'e', 'r', 'a', 'c', 't', 'i', 'o', 'n', 'C', 'o', 'r', 'r', 'e', 'c', 't', 'i', 'o', 'n']),
   (38, ['D', 'i', 'p', 'o', 'l', 'e']),
   (39, ['S', 't', 'r', 'e', 's', 's']),
   (40, ['E', 'x', 'c', 'i', 't', 'a', 't', 'i', 'o', 'n', 's']),
   (41, ['F', 'C', 'I']),
   (42, ['S', 'p', 'i', 'n']),
   (43, ['M', 'o', 'm', 'e', 'n', 't', 'a']),
   (44, ['V', 'e', 'l', 'o', 'c', 'i', 't', 'i', 'e', 's']),
   (45, ['F', 'e', 'r', 'm', 'i', 'V', 'e', 'l', 'o', 'c', 'i', 't', 'y']),
   (46, ['R']),
   (47, ['L']),
   (48, ['Q']),
   (49, ['B', 'e', 'r', 'r', 'y']),
   (50, ['S', 'y', 'm', 'm', 'e', 't', 'r', 'i', 'e', 's']),
   (51, ['K', 'p', 'o', 'i', 'n', 't', 's']),
   (52, ['G', 'v', 'e', 'c', 't', 'o', 'r', 's']),
   (53, ['O', 'r', 'b', 'i', 't', 'a', 'l', 'D', 'e', 'p']),
   (54, ['X', 'C', 'a', 'n', 'a', 'l', 'y', 's', 'i', 's']),
   (55, ['E', 'r', 'e', 's', 'o', 'l', 'v', 'e', 'd', 'D', 'e', 'n', 's', 'i', 't', 'y']),
   (56, ['F', 'e', 'r', 'm', 'i', 'D', 'e', 'n', 's', 'i', 't', 'y']),
   (57, ['D', 'W', 'f', 'n', 's']),
   (58, ['D', 'n']),
   (59, ['D', 'V', 'e', 'x', 't']),
   (60, ['D', 'V', 's', 'c', 'l', 'o', 'c']),
   (61, ['H', 'C'])]

/-- jdftx/commands/dump.cpp:346-350 `polarizabilityMap`. -/
def t_polarizabilityMap : List (Nat × List Char) :=
  [(0, ['N', 'o', 'n', 'I', 'n', 't', 'e', 'r', 'a', 'c', 't', 'i', 'n', 'g']),
   (1, ['E', 'x', 't', 'e', 'r', 'n', 'a', 'l']),
   (2, ['T', 'o', 't', 'a', 'l'])]

/-- jdftx/commands/dump.cpp:390-400 `esmMap`. -/
def t_esmMap : List (Nat × List Char) :=
  [(0, ['e', 't', 'a']),
   (1, ['E', 'c', 'u', 't']),
   (2, ['f', 'C', 'u', 't']),
   (3, ['o', 'm', 'e', 'g', 'a', 'M', 'a', 'x']),
   (4, ['d', 'u', 'm', 'p', 'E', 'p', 's', 'i', 'l', 'o', 'n']),
   (5, ['R', 'P', 'A']),
   (6, ['s', 'l', 'a', 'b', 'R', 'e', 's', 'p', 'o', 'n', 's', 'e']),
   (7, ['E', 'c', 'u', 't', 'T', 'r', 'a', 'n', 's', 'v', 'e', 'r', 's', 'e']),
   (8, ['c', 'o', 'm', 'p', 'u', 't', 'e', 'R', 'a', 'n', 'g', 'e'])]

/-- jdftx/commands/dump.cpp:617-627 `vibMap`. -/
def t_vibMap : List (Nat × List Char) :=
  [(0, ['d', 'r']),
   (1, ['c', 'e', 'n', 't', 'r', 'a', 'l', 'D', 'i', 'f', 'f']),
   (2, ['u', 's', 'e', 'C', 'o', 'n', 's', 't', 'r', 'a', 'i', 'n', 't', 's']),
   (3, ['t', 'r', 'a', 'n', 's', 'l', 'a', 't', 'i', 'o', 'n', 'S', 'y', 'm']),
   (4, ['r', 'o', 't', 'a', 't', 'i', 'o', 'n', 'S', 'y', 'm']),
   (5, ['o', 'm', 'e', 'g', 'a', 'M', 'i', 'n']),
   (6, ['T']),
   (7, ['o', 'm', 'e', 'g', 'a', 'R', 'e', 's', 'o', 'l', 'u', 't', 'i', 'o', 'n']),
   (8, ['d', 'u', 'm', 'p', 'K'])]

/-- jdftx/commands/dump.cpp:991-1011 `bgwpmMap`. -/
def t_bgwpmMap : List (Nat × List Char) :=
  [(0, ['n', 'B', 'a', 'n', 'd', 's', 'D', 'e', 'n', 's', 'e']),
   (1, ['b', 'l', 'o', 'c', 'k', 'S', 'i', 'z', 'e']),
   (2, ['c', 'l', 'u', 's', 't', 'e', 'r', 'S', 'i', 'z', 'e']),
   (3, ['n', 'B', 'a', 'n', 'd', 's', 'V']),
   (4, ['s', 'a', 'v', 'e', 'V', 'x', 'c']),
   (5, ['s', 'a', 'v', 'e', 'V', 'x', 'x']),
   (6, ['r', 'p', 'a', 'E', 'x', 'x']),
   (7, ['o', 'f', 'f', 'D', 'i', 'a', 'g', 'V']),
   (8, ['E', 'c', 'u', 't', 'C', 'h', 'i', 'F', 'l', 'u', 'i', 'd']),
   (9, ['e', 'l', 'e', 'c', 'O', 'n', 'l', 'y']),
   (10, ['q', '0']),
   (11, ['f', 'r', 'e', 'q', 'R', 'e', 'M', 'a', 'x', '_', 'e', 'V']),
   (12, ['f', 'r', 'e', 'q', 'R', 'e', 'S', 't', 'e', 'p', '_', 'e', 'V']),
   (13, ['f', 'r', 'e', 'q', 'B', 'r', 'o', 'a', 'd', 'e', 'n', '_', 'e', 'V']),
   (14, ['f', 'r', 'e', 'q', 'N', 'i', 'm', 'a', 'g']),
   (15, ['f', 'r', 'e', 'q', 'P', 'l', 'a', 's', 'm', 'a']),
   (16, ['E', 'c', 'u', 't', '_', 'r', 'A', 'L', 'D', 'A']),
   (17, ['k', 'F', 'c', 'u', 't', '_', 'r', 'A', 'L', 'D', 'A']),
   (18, ['k', 'e', 'r', 'n', 'e', 'l', 'S', 'y', 'm', '_', 'r', 'A', 'L', 'D', 'A'])]

/-- jdftx/commands/elec_ex_corr.cpp:24-44 `exCorrTypeMap`. -/
def t_exCorrTypeMap : List (Nat × List Char) :=
  [(0, ['l', 'd', 'a']),
   (0, ['l', 'd', 'a', '-', 'P', 'Z']),
   (1, ['l', 'd', 'a', '-', 'P', 'W']),
   (2, ['l', 'd', 'a', '-', 'P', 'W', '-', 'p', 'r', 'e', 'c']),
   (3, ['l', 'd', 'a', '-', 'V', 'W', 'N']),
   (4, ['l', 'd', 'a', '-', 'T', 'e', 't', 'e', 'r']),
   (5, ['g', 'g', 'a']),
   (5, ['g', 'g', 'a', '-', 'P', 'B', 'E']),
   (6, ['g', 'g', 'a', '-', 'P', 'B', 'E', 's', 'o', 'l']),
   (7, ['g', 'g', 'a', '-', 'P', 'W', '9', '1']),
   (8, ['m', 'g', 'g', 'a', '-', 'T', 'P', 'S', 'S']),
   (9, ['m', 'g', 'g', 'a', '-', 'r', 'e', 'v', 'T', 'P', 'S', 'S']),
   (10, ['o', 'r', 'b', '-', 'G', 'L', 'L', 'B', 's', 'c']),
   (11, ['p', 'o', 't', '-', 'L', 'B', '9', '4']),
   (12, ['h', 'y', 'b', '-', 'P', 'B', 'E', '0']),
   (13, ['h', 'y', 'b', '-', 'H', 'S', 'E', '0', '6']),
   (14, ['h', 'y', 'b', '-', 'H', 'S', 'E', '1', '2']),
   (15, ['h', 'y', 'b', '-', 'H', 'S', 'E', '1', '2', 's']),
   (16, ['H', 'a', 'r', 't', 'r', 'e', 'e', '-', 'F', 'o', 'c', 'k'])]

/-- jdftx/commands/elec_ex_corr.cpp:65-69 `kineticTypeMap`. -/
def t_kineticTypeMap : List (Nat × List Char) :=
  [(0, ['l', 'd', 'a', '-', 'T', 'F']),
   (1, ['g', 'g', 'a', '-', 'v', 'W']),
   (2, ['g', 'g', 'a', '-', 'P', 'W', '9', '1', 'k'])]

/-- jdftx/commands/elec_fillings.cpp:25-29 `smearingTypeMap`. -/
def t_smearingTypeMap : List (Nat × List Char) :=
  [(0, ['F', 'e', 'r', 'm', 'i']),
   (1, ['G', 'a', 'u', 's', 's']),
   (2, ['M', 'P', '1']),
   (3, ['C', 'o', 'l', 'd'])]

/-- jdftx/commands/elec_misc.cpp:160-165 `spinMap`. -/
def t_spinMap : List (Nat × List Char) :=
  [(0, ['n', 'o', '-', 's', 'p', 'i', 'n']),
   (1, ['z', '-', 's', 'p', 'i', 'n']),
   (2, ['v', 'e', 'c', 't', 'o', 'r', '-', 's', 'p', 'i', 'n']),
   (3, ['s', 'p', 'i', 'n', '-', 'o', 'r', 'b', 'i', 't'])]

/-- jdftx/commands/elec_misc.cpp:333-333 `elecEigenMap`. -/
def t_elecEigenMap : List (Nat × List Char) :=
  [(0, ['C', 'G']),
   (1, ['D', 'a', 'v', 'i', 'd', 's', 'o', 'n'])]

/-- jdftx/commands/fluid.cpp:24-30 `fluidTypeMap`. -/
def t_fluidTypeMap : List (Nat × List Char) :=
  [(0, ['N', 'o', 'n', 'e']),
   (1, ['L', 'i', 'n', 'e', 'a', 'r', 'P', 'C', 'M']),
   (2, ['N', 'o', 'n', 'l', 'i', 'n', 'e', 'a', 'r', 'P', 'C', 'M']),
   (3, ['S', 'a', 'L', 'S', 'A']),
   (4, ['C', 'l', 'a', 's', 's', 'i', 'c', 'a', 'l', 'D', 'F', 'T'])]

/-- jdftx/commands/fluid.cpp:104-108 `fluidSolveFreqMap`. -/
def t_fluidSolveFreqMap : List (Nat × List Char) :=
  [(0, ['I', 'n', 'n', 'e', 'r']),
   (1, ['G', 'u', 'm', 'm', 'e', 'l']),
   (2, ['D', 'e', 'f', 'a', 'u', 'l', 't'])]

/-- jdftx/commands/fluid.cpp:191-212 `solventMap`. -/
def t_solventMap : List (Nat × List Char) :=
  [(0, ['H', '2', 'O']),
   (1, ['C', 'H', 'C', 'l', '3']),
   (2, ['C', 'C', 'l', '4']),
   (3, ['C', 'H', '3', 'C', 'N']),
   (4, ['D', 'M', 'C']),
   (5, ['E', 'C']),
   (6, ['P', 'C']),
   (7, ['D', 'M', 'F']),
   (8, ['T', 'H', 'F']),
   (9, ['D', 'M', 'S', 'O']),
   (10, ['C', 'H', '2', 'C', 'l', '2']),
   (11, ['E', 't', 'h', 'a', 'n', 'o', 'l']),
   (12, ['M', 'e', 't', 'h', 'a', 'n', 'o', 'l']),
   (13, ['O', 'c', 't', 'a', 'n', 'o', 'l']),
   (14, ['E', 't', 'h', 'y', 'l', 'E', 't', 'h', 'e', 'r']),
   (15, ['C', 'h', 'l', 'o', 'r', 'o', 'b', 'e', 'n', 'z', 'e', 'n', 'e']),
   (16, ['I', 's', 'o', 'b', 'u', 't', 'a', 'n', 'o', 'l']),
   (17, ['C', 'a', 'r', 'b', 'o', 'n', 'D', 'i', 's', 'u', 'l', 'f', 'i', 'd', 'e']),
   (18, ['G', 'l', 'y', 'm', 'e']),
   (19, ['E', 't', 'h', 'y', 'l', 'e', 'n', 'e', 'G', 'l', 'y', 'c', 'o', 'l'])]

/-- jdftx/commands/fluid.cpp:213-220 `cationMap`. -/
def t_cationMap : List (Nat × List Char) :=
  [(0, ['N', 'a', '+']),
   (1, ['K', '+'])]

/-- jdftx/commands/fluid.cpp:221-227 `anionMap`. -/
def t_anionMap : List (Nat × List Char) :=
  [(0, ['C', 'l', '-']),
   (1, ['F', '-']),
   (2, ['C', 'l', 'O', '4', '-'])]

/-- jdftx/commands/fluid.cpp:228-233 `functionalMap`. -/
def t_functionalMap : List (Nat × List Char) :=
  [(0, ['S', 'c', 'a', 'l', 'a', 'r', 'E', 'O', 'S']),
   (1, ['F', 'i', 't', 't', 'e', 'd', 'C', 'o', 'r', 'r', 'e', 'l', 'a', 't', 'i', 'o', 'n', 's']),
   (2, ['B', 'o', 'n', 'd', 'e', 'd', 'V', 'o', 'i', 'd', 's']),
   (3, ['M', 'e', 'a', 'n', 'F', 'i', 'e', 'l', 'd', 'L', 'J'])]

/-- jdftx/commands/fluid.cpp:235-239 `translationModeMap`. -/
def t_translationModeMap : List (Nat × List Char) :=
  [(0, ['C', 'o', 'n', 's', 't', 'a', 'n', 't', 'S', 'p', 'l', 'i', 'n', 'e']),
   (1, ['L', 'i', 'n', 'e', 'a', 'r', 'S', 'p', 'l', 'i', 'n', 'e']),
   (2, ['F', 'o', 'u', 'r', 'i', 'e', 'r'])]

/-- jdftx/commands/fluid.cpp:241-245 `representationMap`. -/
def t_representationMap : List (Nat × List Char) :=
  [(0, ['M', 'u', 'E', 'p', 's']),
   (1, ['P', 'o', 'm', 'e', 'g', 'a']),
   (2, ['P', 's', 'i', 'A', 'l', 'p', 'h', 'a'])]

/-- jdftx/commands/fluid.cpp:272-290 `fcmMap`. -/
def t_fcmMap : List (Nat × List Char) :=
  [(0, ['e', 'p', 's', 'B', 'u', 'l', 'k']),
   (1, ['p', 'M', 'o', 'l']),
   (2, ['e', 'p', 's', 'I', 'n', 'f']),
   (3, ['P', 'v', 'a', 'p']),
   (4, ['s', 'i', 'g', 'm', 'a', 'B', 'u', 'l', 'k']),
   (5, ['R', 'v', 'd', 'w']),
   (6, ['R', 'e', 's']),
   (7, ['t', 'a', 'u', 'N', 'u', 'c']),
   (8, ['p', 'o', 'l', 'e', 'E', 'l']),
   (9, ['e', 'p', 's', 'L', 'J']),
   (10, ['r', 'e', 'p', 'r', 'e', 's', 'e', 'n', 't', 'a', 't', 'i', 'o', 'n']),
   (11, ['s', '2', 'q', 'u', 'a', 'd', 'T', 'y', 'p', 'e']),
   (12, ['q', 'u', 'a', 'd', '_', 'n', 'B', 'e', 't', 'a']),
   (13, ['q', 'u', 'a', 'd', '_', 'n', 'A', 'l', 'p', 'h', 'a']),
   (14, ['q', 'u', 'a', 'd', '_', 'n', 'G', 'a', 'm', 'm', 'a']),
   (15, ['t', 'r', 'a', 'n', 's', 'l', 'a', 't', 'i', 'o', 'n']),
   (16, ['N', 'n', 'o', 'r', 'm'])]

/-- jdftx/commands/fluid.cpp:534-545 `FSParamMap`. -/
def t_FSParamMap : List (Nat × List Char) :=
  [(0, ['Z', 'n', 'u', 'c']),
   (1, ['s', 'i', 'g', 'm', 'a', 'N', 'u', 'c']),
   (2, ['Z', 'e', 'l', 'e', 'c']),
   (3, ['a', 'E', 'l', 'e', 'c']),
   (4, ['s', 'i', 'g', 'm', 'a', 'E', 'l', 'e', 'c']),
   (5, ['r', 'c', 'E', 'l', 'e', 'c']),
   (6, ['a', 'l', 'p', 'h', 'a']),
   (7, ['a', 'P', 'o', 'l']),
   (8, ['R', 'h', 's']),
   (9, ['e', 'l', 'e', 'c', 'F', 'i', 'l', 'e', 'n', 'a', 'm', 'e']),
   (10, ['e', 'l', 'e', 'c', 'F', 'i', 'l', 'e', 'n', 'a', 'm', 'e', 'G'])]

/-- jdftx/commands/fluid.cpp:561-585 `fluidComponentMap`. -/
def t_fluidComponentMap : List (Nat × List Char) :=
  [(0, ['H', '2', 'O']),
   (1, ['C', 'H', 'C', 'l', '3']),
   (2, ['C', 'C', 'l', '4']),
   (3, ['C', 'H', '3', 'C', 'N']),
   (4, ['D', 'M', 'C']),
   (5, ['E', 'C']),
   (6, ['P', 'C']),
   (7, ['D', 'M', 'F']),
   (8, ['T', 'H', 'F']),
   (9, ['E', 't', 'h', 'y', 'l', 'E', 't', 'h', 'e', 'r']),
   (10, ['C', 'h', 'l', 'o', 'r', 'o', 'b', 'e', 'n', 'z', 'e', 'n', 'e']),
   (11, ['I', 's', 'o', 'b', 'u', 't', 'a', 'n', 'o', 'l']),
   (12, ['C', 'a', 'r', 'b', 'o', 'n', 'D', 'i', 's', 'u', 'l', 'f', 'i', 'd', 'e']),
   (13, ['C', 'u', 's', 't', 'o', 'm', 'S', 'o', 'l', 'v', 'e', 'n', 't']),
   (14, ['N', 'a', '+']),
   (15, ['N', 'a', '(', 'H', '2', 'O', ')', '4', '+']),
   (16, ['C', 'u', 's', 't', 'o', 'm', 'C', 'a', 't', 'i', 'o', 'n']),
   (17, ['C', 'l', '-']),
   (18, ['F', '-']),
   (19, ['C', 'l', 'O', '4', '-']),
   (20, ['C', 'u', 's', 't', 'o', 'm', 'A', 'n', 'i', 'o', 'n'])]

/-- jdftx/commands/fluid.cpp:708-712 `fMixMap`. -/
def t_fMixMap : List (Nat × List Char) :=
  [(0, ['L', 'J', 'P', 'o', 't', 'e', 'n', 't', 'i', 'a', 'l']),
   (1, ['G', 'a', 'u', 's', 's', 'i', 'a', 'n', 'K', 'e', 'r', 'n', 'e', 'l'])]

/-- jdftx/commands/initial_state.cpp:86-90 `wfnsInitMap`. -/
def t_wfnsInitMap : List (Nat × List Char) :=
  [(0, ['l', 'c', 'a', 'o']),
   (1, ['r', 'a', 'n', 'd', 'o', 'm']),
   (2, ['r', 'e', 'a', 'd']),
   (3, ['r', 'e', 'a', 'd', '-', 'r', 's'])]

/-- jdftx/commands/ion.cpp:273-277 `overlapCheckMap`. -/
def t_overlapCheckMap : List (Nat × List Char) :=
  [(0, ['a', 'd', 'd', 'i', 't', 'i', 'v', 'e']),
   (1, ['v', 'e', 'c', 't', 'o', 'r']),
   (2, ['n', 'o', 'n', 'e'])]

/-- jdftx/commands/ionic_dynamics.cpp:29-33 `statMethodMap`. -/
def t_statMethodMap : List (Nat × List Char) :=
  [(0, ['N', 'o', 'n', 'e']),
   (1, ['B', 'e', 'r', 'e', 'n', 'd', 's', 'e', 'n']),
   (2, ['N', 'o', 's', 'e', 'H', 'o', 'o', 'v', 'e', 'r'])]

/-- jdftx/commands/ionic_dynamics.cpp:51-63 `idpmMap`. -/
def t_idpmMap : List (Nat × List Char) :=
  [(0, ['d', 't']),
   (1, ['n', 'S', 't', 'e', 'p', 's']),
   (2, ['s', 't', 'a', 't', 'M', 'e', 't', 'h', 'o', 'd']),
   (3, ['T', '0']),
   (4, ['P', '0']),
   (5, ['s', 't', 'r', 'e', 's', 's', '0']),
   (6, ['t', 'D', 'a', 'm', 'p', 'T']),
   (7, ['t', 'D', 'a', 'm', 'p', 'P']),
   (8, ['c', 'h', 'a', 'i', 'n', 'L', 'e', 'n', 'g', 't', 'h', 'T']),
   (9, ['c', 'h', 'a', 'i', 'n', 'L', 'e', 'n', 'g', 't', 'h', 'P']),
   (10, ['B', '0'])]

/-- jdftx/commands/ionic_dynamics.cpp:219-223 `igpGeometryMap`. -/
def t_igpGeometryMap : List (Nat × List Char) :=
  [(0, ['S', 'p', 'h', 'e', 'r', 'i', 'c', 'a', 'l']),
   (1, ['C', 'y', 'l', 'i', 'n', 'd', 'r', 'i', 'c', 'a', 'l']),
   (2, ['P', 'l', 'a', 'n', 'a', 'r'])]

/-- jdftx/commands/lattice.cpp:23-31 `lattTypeMap`. -/
def t_lattTypeMap : List (Nat × List Char) :=
  [(0, ['T', 'r', 'i', 'c', 'l', 'i', 'n', 'i', 'c']),
   (1, ['M', 'o', 'n', 'o', 'c', 'l', 'i', 'n', 'i', 'c']),
   (2, ['O', 'r', 't', 'h', 'o', 'r', 'h', 'o', 'm', 'b', 'i', 'c']),
   (3, ['T', 'e', 't', 'r', 'a', 'g', 'o', 'n', 'a', 'l']),
   (4, ['R', 'h', 'o', 'm', 'b', 'o', 'h', 'e', 'd', 'r', 'a', 'l']),
   (5, ['H', 'e', 'x', 'a', 'g', 'o', 'n', 'a', 'l']),
   (6, ['C', 'u', 'b', 'i', 'c'])]

/-- jdftx/commands/lattice.cpp:33-37 `lattModMap`. -/
def t_lattModMap : List (Nat × List Char) :=
  [(0, ['B', 'o', 'd', 'y', '-', 'C', 'e', 'n', 't', 'e', 'r', 'e', 'd']),
   (1, ['B', 'a', 's', 'e', '-', 'C', 'e', 'n', 't', 'e', 'r', 'e', 'd']),
   (2, ['F', 'a', 'c', 'e', '-', 'C', 'e', 'n', 't', 'e', 'r', 'e', 'd'])]

/-- jdftx/commands/lattice.cpp:233-235 `coordsMap`. -/
def t_coordsMap : List (Nat × List Char) :=
  [(0, ['L', 'a', 't', 't', 'i', 'c', 'e']),
   (1, ['C', 'a', 'r', 't', 'e', 's', 'i', 'a', 'n'])]

/-- jdftx/commands/minimize.cpp:22-28 `dirUpdateMap`. -/
def t_dirUpdateMap : List (Nat × List Char) :=
  [(0, ['P', 'o', 'l', 'a', 'k', 'R', 'i', 'b', 'i', 'e', 'r', 'e']),
   (1, ['F', 'l', 'e', 't', 'c', 'h', 'e', 'r', 'R', 'e', 'e', 'v', 'e', 's']),
   (2, ['H', 'e', 's', 't', 'e', 'n', 'e', 's', 'S', 't', 'i', 'e', 'f', 'e', 'l']),
   (3, ['L', '-', 'B', 'F', 'G', 'S']),
   (4, ['S', 't', 'e', 'e', 'p', 'e', 's', 't', 'D', 'e', 's', 'c', 'e', 'n', 't'])]

/-- jdftx/commands/minimize.cpp:30-35 `linminMap`. -/
def t_linminMap : List (Nat × List Char) :=
  [(0, ['D', 'i', 'r', 'U', 'p', 'd', 'a', 't', 'e', 'R', 'e', 'c', 'o', 'm', 'm', 'e', 'n', 'd', 'e', 'd']),
   (1, ['R', 'e', 'l', 'a', 'x']),
   (2, ['Q', 'u', 'a', 'd']),
   (3, ['C', 'u', 'b', 'i', 'c', 'W', 'o', 'l', 'f', 'e'])]

/-- jdftx/commands/minimize.cpp:61-81 `mpmMap`. -/
def t_mpmMap : List (Nat × List Char) :=
  [(0, ['d', 'i', 'r', 'U', 'p', 'd', 'a', 't', 'e', 'S', 'c', 'h', 'e', 'm', 'e']),
   (1, ['l', 'i', 'n', 'm', 'i', 'n', 'M', 'e', 't', 'h', 'o', 'd']),
   (2, ['n', 'I', 't', 'e', 'r', 'a', 't', 'i', 'o', 'n', 's']),
   (3, ['h', 'i', 's', 't', 'o', 'r', 'y']),
   (4, ['k', 'n', 'o', 'r', 'm', 'T', 'h', 'r', 'e', 's', 'h', 'o', 'l', 'd']),
   (5, ['m', 'a', 'x', 'T', 'h', 'r', 'e', 's', 'h', 'o', 'l', 'd']),
   (6, ['e', 'n', 'e', 'r', 'g', 'y', 'D', 'i', 'f', 'f', 'T', 'h', 'r', 'e', 's', 'h', 'o', 'l', 'd']),
   (7, ['n', 'E', 'n', 'e', 'r', 'g', 'y', 'D', 'i', 'f', 'f']),
   (8, ['c', 'o', 'n', 'v', 'e', 'r', 'g', 'e', 'A', 'l', 'l']),
   (9, ['a', 'l', 'p', 'h', 'a', 'T', 's', 't', 'a', 'r', 't']),
   (10, ['a', 'l', 'p', 'h', 'a', 'T', 'm', 'i', 'n']),
   (11, ['u', 'p', 'd', 'a', 't', 'e', 'T', 'e', 's', 't', 'S', 't', 'e', 'p', 'S', 'i', 'z', 'e']),
   (12, ['a', 'l', 'p', 'h', 'a', 'T', 'r', 'e', 'd', 'u', 'c', 'e', 'F', 'a', 'c', 't', 'o', 'r']),
   (13, ['a', 'l', 'p', 'h', 'a', 'T', 'i', 'n', 'c', 'r', 'e', 'a', 's', 'e', 'F', 'a', 'c', 't', 'o', 'r']),
   (14, ['n', 'A', 'l', 'p', 'h', 'a', 'A', 'd', 'j', 'u', 's', 't', 'M', 'a', 'x']),
   (15, ['w', 'o', 'l', 'f', 'e', 'E', 'n', 'e', 'r', 'g', 'y']),
   (16, ['w', 'o', 'l', 'f', 'e', 'G', 'r', 'a', 'd', 'i', 'e', 'n', 't']),
   (17, ['a', 'b', 'o', 'r', 't', 'O', 'n', 'F', 'a', 'i', 'l', 'e', 'd', 'S', 't', 'e', 'p']),
   (18, ['f', 'd', 'T', 'e', 's', 't'])]

/-- jdftx/commands/pcm_params.cpp:23-39 `pcmVariantMap`. -/
def t_pcmVariantMap : List (Nat × List Char) :=
  [(0, ['C', 'A', 'N', 'D', 'L', 'E']),
   (1, ['C', 'A', 'N', 'O', 'N']),
   (2, ['S', 'G', 'A', '1', '3']),
   (3, ['G', 'L', 'S', 'S', 'A', '1', '3']),
   (4, ['L', 'A', '1', '2']),
   (5, ['S', 'o', 'f', 't', 'S', 'p', 'h', 'e', 'r', 'e']),
   (6, ['F', 'i', 'x', 'e', 'd', 'C', 'a', 'v', 'i', 't', 'y']),
   (7, ['S', 'C', 'C', 'S', '_', 'g', '0', '9']),
   (8, ['S', 'C', 'C', 'S', '_', 'g', '0', '3']),
   (9, ['S', 'C', 'C', 'S', '_', 'g', '0', '3', 'p']),
   (10, ['S', 'C', 'C', 'S', '_', 'g', '0', '9', 'b', 'e', 't', 'a']),
   (11, ['S', 'C', 'C', 'S', '_', 'g', '0', '3', 'b', 'e', 't', 'a']),
   (12, ['S', 'C', 'C', 'S', '_', 'g', '0', '3', 'p', 'b', 'e', 't', 'a']),
   (13, ['S', 'C', 'C', 'S', '_', 'c', 'a', 't', 'i', 'o', 'n']),
   (14, ['S', 'C', 'C', 'S', '_', 'a', 'n', 'i', 'o', 'n'])]

/-- jdftx/commands/pcm_params.cpp:121-144 `pcmParamMap`. -/
def t_pcmParamMap : List (Nat × List Char) :=
  [(0, ['l', 'M', 'a', 'x']),
   (1, ['n', 'c']),
   (2, ['s', 'i', 'g', 'm', 'a']),
   (3, ['c', 'a', 'v', 'i', 't', 'y', 'T', 'e', 'n', 's', 'i', 'o', 'n']),
   (4, ['c', 'a', 'v', 'i', 't', 'y', 'P', 'r', 'e', 's', 's', 'u', 'r', 'e']),
   (5, ['c', 'a', 'v', 'i', 't', 'y', 'S', 'c', 'a', 'l', 'e']),
   (6, ['i', 'o', 'n', 'S', 'p', 'a', 'c', 'i', 'n', 'g']),
   (7, ['c', 'a', 'v', 'i', 't', 'y', 'F', 'i', 'l', 'e']),
   (8, ['z', 'M', 'a', 's', 'k', '0']),
   (9, ['z', 'M', 'a', 's', 'k', 'H']),
   (10, ['z', 'M', 'a', 's', 'k', 'I', 'o', 'n', 'H']),
   (11, ['z', 'M', 'a', 's', 'k', 'S', 'i', 'g', 'm', 'a']),
   (12, ['r', 'h', 'o', 'M', 'i', 'n']),
   (13, ['r', 'h', 'o', 'M', 'a', 'x']),
   (14, ['r', 'h', 'o', 'D', 'e', 'l', 't', 'a']),
   (15, ['e', 't', 'a', '_', 'w', 'D', 'i', 'e', 'l']),
   (16, ['s', 'q', 'r', 't', 'C', '6', 'e', 'f', 'f']),
   (17, ['p', 'C', 'a', 'v', 'i', 't', 'y']),
   (18, ['Z', 't', 'o', 't']),
   (19, ['R', 'e', 's']),
   (20, ['Z', 'c', 'e', 'n', 't', 'e', 'r']),
   (21, ['s', 'c', 'r', 'e', 'e', 'n', 'O', 'v', 'e', 'r', 'r', 'i', 'd', 'e'])]

/-- jdftx/commands/perturbation.cpp:33-40 `VPTpMap`. -/
def t_VPTpMap : List (Nat × List Char) :=
  [(0, ['n', 'I', 't', 'e', 'r', 'a', 't', 'i', 'o', 'n', 's']),
   (1, ['a', 'l', 'g', 'o', 'r', 'i', 't', 'h', 'm']),
   (2, ['r', 'e', 's', 'i', 'd', 'u', 'a', 'l', 'T', 'o', 'l']),
   (3, ['r', 'e', 's', 'i', 'd', 'u', 'a', 'l', 'D', 'i', 'f', 'f', 'T', 'h', 'r', 'e', 's', 'h', 'o', 'l', 'd']),
   (4, ['C', 'G', 'B', 'y', 'p', 'a', 's', 's']),
   (5, ['r', 'e', 'c', 'o', 'm', 'p', 'u', 't', 'e', 'R', 'e', 's', 'i', 'd', 'u', 'a', 'l'])]

/-- jdftx/commands/perturbation.cpp:50-53 `algMap`. -/
def t_algMap : List (Nat × List Char) :=
  [(0, ['C', 'G']),
   (1, ['M', 'I', 'N', 'R', 'E', 'S'])]

/-- jdftx/commands/scf.cpp:34-41 `pulayParamsMap`. -/
def t_pulayParamsMap : List (Nat × List Char) :=
  [(0, ['n', 'I', 't', 'e', 'r', 'a', 't', 'i', 'o', 'n', 's']),
   (1, ['e', 'n', 'e', 'r', 'g', 'y', 'D', 'i', 'f', 'f', 'T', 'h', 'r', 'e', 's', 'h', 'o', 'l', 'd']),
   (2, ['r', 'e', 's', 'i', 'd', 'u', 'a', 'l', 'T', 'h', 'r', 'e', 's', 'h', 'o', 'l', 'd']),
   (3, ['m', 'i', 'x', 'F', 'r', 'a', 'c', 't', 'i', 'o', 'n']),
   (4, ['q', 'M', 'e', 't', 'r', 'i', 'c']),
   (5, ['h', 'i', 's', 't', 'o', 'r', 'y'])]

/-- jdftx/commands/scf.cpp:112-120 `scfParamsMap`. -/
def t_scfParamsMap : List (Nat × List Char) :=
  [(0, ['n', 'E', 'i', 'g', 'S', 't', 'e', 'p', 's']),
   (1, ['e', 'i', 'g', 'D', 'i', 'f', 'f', 'T', 'h', 'r', 'e', 's', 'h', 'o', 'l', 'd']),
   (2, ['m', 'i', 'x', 'e', 'd', 'V', 'a', 'r', 'i', 'a', 'b', 'l', 'e']),
   (3, ['q', 'K', 'e', 'r', 'k', 'e', 'r']),
   (4, ['q', 'K', 'a', 'p', 'p', 'a']),
   (5, ['v', 'e', 'r', 'b', 'o', 's', 'e']),
   (6, ['m', 'i', 'x', 'F', 'r', 'a', 'c', 't', 'i', 'o', 'n', 'M', 'a', 'g'])]

/-- jdftx/commands/scf.cpp:131-134 `scfMixing`. -/
def t_scfMixing : List (Nat × List Char) :=
  [(0, ['D', 'e', 'n', 's', 'i', 't', 'y']),
   (1, ['P', 'o', 't', 'e', 'n', 't', 'i', 'a', 'l'])]

/-- jdftx/commands/symmetries.cpp:24-27 `symmMap`. -/
def t_symmMap : List (Nat × List Char) :=
  [(0, ['n', 'o', 'n', 'e']),
   (1, ['a', 'u', 't', 'o', 'm', 'a', 't', 'i', 'c']),
   (2, ['m', 'a', 'n', 'u', 'a', 'l'])]

/-- jdftx/electronic/Control.h:32-32 `kdepMap`. -/
def t_kdepMap : List (Nat × List Char) :=
  [(0, ['k', 'p', 'o', 'i', 'n', 't', '-', 'd', 'e', 'p', 'e', 'n', 'd', 'e', 'n', 't']),
   (1, ['s', 'i', 'n', 'g', 'l', 'e'])]

/-- jdftx/electronic/IonInfo.h:41-45 `forcesOutputCoordsMap`. -/
def t_forcesOutputCoordsMap : List (Nat × List Char) :=
  [(0, ['P', 'o', 's', 'i', 't', 'i', 'o', 'n', 's']),
   (1, ['L', 'a', 't', 't', 'i', 'c', 'e']),
   (2, ['C', 'a', 'r', 't', 'e', 's', 'i', 'a', 'n']),
   (3, ['C', 'o', 'n', 't', 'r', 'a', 'v', 'a', 'r', 'i', 'a', 'n', 't'])]

/-- jdftx/electronic/SpeciesInfo.h:272-277 `constraintTypeMap`. -/
def t_constraintTypeMap : List (Nat × List Char) :=
  [(0, ['N', 'o', 'n', 'e']),
   (1, ['L', 'i', 'n', 'e', 'a', 'r']),
   (2, ['P', 'l', 'a', 'n', 'a', 'r']),
   (3, ['H', 'y', 'p', 'e', 'r', 'P', 'l', 'a', 'n', 'e'])]

/-- jdftx/electronic/symbols.cpp:22-141 `atomicSymbolMap`. -/
def t_atomicSymbolMap : List (Nat × List Char) :=
  [(0, ['H']),
   (1, ['H', 'e']),
   (2, ['L', 'i']),
   (3, ['B', 'e']),
   (4, ['B']),
   (5, ['C']),
   (6, ['N']),
   (7, ['O']),
   (8, ['F']),
   (9, ['N', 'e']),
   (10, ['N', 'a']),
   (11, ['M', 'g']),
   (12, ['A', 'l']),
   (13, ['S', 'i']),
   (14, ['P']),
   (15, ['S']),
   (16, ['C', 'l']),
   (17, ['A', 'r']),
   (18, ['K']),
   (19, ['C', 'a']),
   (20, ['S', 'c']),
   (21, ['T', 'i']),
   (22, ['V']),
   (23, ['C', 'r']),
   (24, ['M', 'n']),
   (25, ['F', 'e']),
   (26, ['C', 'o']),
   (27, ['N', 'i']),
   (28, ['C', 'u']),
   (29, ['Z', 'n']),
   (30, ['G', 'a']),
   (31, ['G', 'e']),
   (32, ['A', 's']),
   (33, ['S', 'e']),
   (34, ['B', 'r']),
   (35, ['K', 'r']),
   (36, ['R', 'b']),
   (37, ['S', 'r']),
   (38, ['Y']),
   (39, ['Z', 'r']),
   (40, ['N', 'b']),
   (41, ['M', 'o']),
   (42, ['T', 'c']),
   (43, ['R', 'u']),
   (44, ['R', 'h']),
   (45, ['P', 'd']),
   (46, ['A', 'g']),
   (47, ['C', 'd']),
   (48, ['I', 'n']),
   (49, ['S', 'n']),
   (50, ['S', 'b']),
   (51, ['T', 'e']),
   (52, ['I']),
   (53, ['X', 'e']),
   (54, ['C', 's']),
   (55, ['B', 'a']),
   (56, ['L', 'a']),
   (57, ['C', 'e']),
   (58, ['P', 'r']),
   (59, ['N', 'd']),
   (60, ['P', 'm']),
   (61, ['S', 'm']),
   (62, ['E', 'u']),
   (63, ['G', 'd']),
   (64, ['T', 'b']),
   (65, ['D', 'y']),
   (66, ['H', 'o']),
   (67, ['E', 'r']),
   (68, ['T', 'm']),
   (69, ['Y', 'b']),
   (70, ['L', 'u']),
   (71, ['H', 'f']),
   (72, ['T', 'a']),
   (73, ['W']),
   (74, ['R', 'e']),
   (75, ['O', 's']),
   (76, ['I', 'r']),
   (77, ['P', 't']),
   (78, ['A', 'u']),
   (79, ['H', 'g']),
   (80, ['T', 'l']),
   (81, ['P', 'b']),
   (82, ['B', 'i']),
   (83, ['P', 'o']),
   (84, ['A', 't']),
   (85, ['R', 'n']),
   (86, ['F', 'r']),
   (87, ['R', 'a']),
   (88, ['A', 'c']),
   (89, ['T', 'h']),
   (90, ['P', 'a']),
   (91, ['U']),
   (92, ['N', 'p']),
   (93, ['P', 'u']),
   (94, ['A', 'm']),
   (95, ['C', 'm']),
   (96, ['B', 'k']),
   (97, ['C', 'f']),
   (98, ['E', 's']),
   (99, ['F', 'm']),
   (100, ['M', 'd']),
   (101, ['N', 'o']),
   (102, ['L', 'r']),
   (103, ['R', 'f']),
   (104, ['D', 'b']),
   (105, ['S', 'g']),
   (106, ['B', 'h']),
   (107, ['H', 's']),
   (108, ['M', 't']),
   (109, ['D', 's']),
   (110, ['R', 'g']),
   (111, ['C', 'n']),
   (112, ['U', 'u', 't']),
   (113, ['U', 'u', 'q']),
   (114, ['U', 'u', 'p']),
   (115, ['U', 'u', 'h']),
   (116, ['U', 'u', 's']),
   (117, ['U', 'u', 'o'])]

/-- jdftx/fluid/S2quad.h:72-92 `S2quadTypeMap`. -/
def t_S2quadTypeMap : List (Nat × List Char) :=
  [(0, ['E', 'u', 'l', 'e', 'r']),
   (1, ['T', 'e', 't', 'r', 'a', 'h', 'e', 'd', 'r', 'o', 'n']),
   (2, ['O', 'c', 't', 'a', 'h', 'e', 'd', 'r', 'o', 'n']),
   (3, ['I', 'c', 'o', 's', 'a', 'h', 'e', 'd', 'r', 'o', 'n']),
   (4, ['7', 'd', 'e', 's', 'i', 'g', 'n', '2', '4']),
   (5, ['8', 'd', 'e', 's', 'i', 'g', 'n', '3', '6']),
   (6, ['9', 'd', 'e', 's', 'i', 'g', 'n', '4', '8']),
   (7, ['1', '0', 'd', 'e', 's', 'i', 'g', 'n', '6', '0']),
   (8, ['1', '1', 'd', 'e', 's', 'i', 'g', 'n', '7', '0']),
   (9, ['1', '2', 'd', 'e', 's', 'i', 'g', 'n', '8', '4']),
   (10, ['1', '3', 'd', 'e', 's', 'i', 'g', 'n', '9', '4']),
   (11, ['1', '4', 'd', 'e', 's', 'i', 'g', 'n', '1', '0', '8']),
   (12, ['1', '5', 'd', 'e', 's', 'i', 'g', 'n', '1', '2', '0']),
   (13, ['1', '6', 'd', 'e', 's', 'i', 'g', 'n', '1', '4', '4']),
   (14, ['1', '7', 'd', 'e', 's', 'i', 'g', 'n', '1', '5', '6']),
   (15, ['1', '8', 'd', 'e', 's', 'i', 'g', 'n', '1', '8', '0']),
   (16, ['1', '9', 'd', 'e', 's', 'i', 'g', 'n', '2', '0', '4']),
   (17, ['2', '0', 'd', 'e', 's', 'i', 'g', 'n', '2', '1', '6']),
   (18, ['2', '1', 'd', 'e', 's', 'i', 'g', 'n', '2', '4', '0'])]

/-- jdftx/phonon/commands.cpp:37-47 `phononMemberMap`. -/
def t_phononMemberMap : List (Nat × List Char) :=
  [(0, ['s', 'u', 'p', 'e', 'r', 'c', 'e', 'l', 'l']),
   (1, ['d', 'r']),
   (2, ['i', 'P', 'e', 'r', 't', 'u', 'r', 'b', 'a', 't', 'i', 'o', 'n']),
   (3, ['c', 'o', 'l', 'l', 'e', 'c', 't', 'P', 'e', 'r', 't', 'u', 'r', 'b', 'a', 't', 'i', 'o', 'n', 's']),
   (4, ['s', 'a', 'v', 'e', 'H', 's', 'u', 'b']),
   (5, ['u', 's', 'e', 'V', 'P', 'T']),
   (6, ['T']),
   (7, ['F', 'c', 'u', 't']),
   (8, ['r', 'S', 'm', 'o', 'o', 't', 'h'])]

/-- jdftx/wannier/commands.cpp:53-79 `wannierMemberMap`. -/
def t_wannierMemberMap : List (Nat × List Char) :=
  [(0, ['a', 'd', 'd', 'A', 't', 'o', 'm', 'i', 'c', 'O', 'r', 'b', 'i', 't', 'a', 'l', 's']),
   (1, ['p', 'i', 'n', 'A', 't', 'o', 'm', 'i', 'c', 'O', 'r', 'b', 'i', 't', 'a', 'l', 's']),
   (2, ['i', 'g', 'n', 'o', 'r', 'e', 'S', 'e', 'm', 'i', 'C', 'o', 'r', 'e']),
   (3, ['l', 'o', 'c', 'a', 'l', 'i', 'z', 'a', 't', 'i', 'o', 'n', 'M', 'e', 'a', 's', 'u', 'r', 'e']),
   (4, ['b', 'S', 't', 'a', 'r', 't']),
   (5, ['o', 'u', 't', 'e', 'r', 'W', 'i', 'n', 'd', 'o', 'w']),
   (6, ['i', 'n', 'n', 'e', 'r', 'W', 'i', 'n', 'd', 'o', 'w']),
   (7, ['p', 'r', 'o', 'j', 'e', 'c', 't', 'i', 'o', 'n', 'T', 'h', 'r', 'e', 's', 'h', 'o', 'l', 'd', 's']),
   (8, ['f', 'r', 'o', 'z', 'e', 'n', 'C', 'e', 'n', 't', 'e', 'r', 's']),
   (9, ['s', 'a', 'v', 'e', 'W', 'f', 'n', 's']),
   (10, ['s', 'a', 'v', 'e', 'W', 'f', 'n', 's', 'R', 'e', 'a', 'l', 'S', 'p', 'a', 'c', 'e']),
   (11, ['s', 'a', 'v', 'e', 'M', 'o', 'm', 'e', 'n', 't', 'a']),
   (12, ['s', 'a', 'v', 'e', 'S', 'p', 'i', 'n']),
   (13, ['s', 'a', 'v', 'e', 'R']),
   (14, ['s', 'a', 'v', 'e', 'R', 'P']),
   (15, ['s', 'a', 'v', 'e', 'Z']),
   (16, ['s', 'l', 'a', 'b', 'W', 'e', 'i', 'g', 'h', 't']),
   (17, ['l', 'o', 'a', 'd', 'R', 'o', 't', 'a', 't', 'i', 'o', 'n', 's']),
   (18, ['e', 'i', 'g', 's', 'O', 'v', 'e', 'r', 'r', 'i', 'd', 'e']),
   (19, ['n', 'u', 'm', 'e', 'r', 'i', 'c', 'a', 'l', 'O', 'r', 'b', 'i', 't', 'a', 'l', 's']),
   (20, ['n', 'u', 'm', 'e', 'r', 'i', 'c', 'a', 'l', 'O', 'r', 'b', 'i', 't', 'a', 'l', 's', 'O', 'f', 'f', 's', 'e', 't']),
   (21, ['p', 'h', 'o', 'n', 'o', 'n', 'S', 'u', 'p', 'e', 'r', 'c', 'e', 'l', 'l']),
   (22, ['r', 'S', 'm', 'o', 'o', 't', 'h']),
   (23, ['s', 'p', 'i', 'n', 'M', 'o', 'd', 'e']),
   (24, ['p', 'o', 'l', 'a', 'r'])]

/-- jdftx/wannier/commands.cpp:81-84 `localizationMeasureMap`. -/
def t_localizationMeasureMap : List (Nat × List Char) :=
  [(0, ['F', 'i', 'n', 'i', 't', 'e', 'D', 'i', 'f', 'f', 'e', 'r', 'e', 'n', 'c', 'e']),
   (1, ['R', 'e', 'a', 'l', 'S', 'p', 'a', 'c', 'e'])]

/-- jdftx/wannier/commands.cpp:86-90 `spinModeMap`. -/
def t_spinModeMap : List (Nat × List Char) :=
  [(0, ['U', 'p']),
   (1, ['D', 'n']),
   (2, ['A', 'l', 'l'])]

/-- All the tables above. -/
def allTables : List (List (Nat × List Char)) :=
  [t_boolMap, t_exRegMethodMap, t_truncationTypeMap, t_truncationDirMap, t_epmMap, t_debugMap,
   t_weightTypeMap, t_varInitMap, t_freqMap, t_varMap, t_polarizabilityMap, t_esmMap,
   t_vibMap, t_bgwpmMap, t_exCorrTypeMap, t_kineticTypeMap, t_smearingTypeMap, t_spinMap,
   t_elecEigenMap, t_fluidTypeMap, t_fluidSolveFreqMap, t_solventMap, t_cationMap, t_anionMap,
   t_functionalMap, t_translationModeMap, t_representationMap, t_fcmMap, t_FSParamMap, t_fluidComponentMap,
   t_fMixMap, t_wfnsInitMap, t_overlapCheckMap, t_statMethodMap, t_idpmMap, t_igpGeometryMap,
   t_lattTypeMap, t_lattModMap, t_coordsMap, t_dirUpdateMap, t_linminMap, t_mpmMap,
   t_pcmVariantMap, t_pcmParamMap, t_VPTpMap, t_algMap, t_pulayParamsMap, t_scfParamsMap,
   t_scfMixing, t_symmMap, t_kdepMap, t_forcesOutputCoordsMap, t_constraintTypeMap, t_atomicSymbolMap,
   t_S2quadTypeMap, t_phononMemberMap, t_wannierMemberMap, t_localizationMeasureMap, t_spinModeMap]

end Jdftx.EnumMap
