import Verif.Model.InputText
import Mathlib.Data.List.Lex
import Mathlib.Algebra.Group.Basic
/-!
# Model of energy components and their printout (jdftx/core/EnergyComponents.h, jdftx/electronic/Energies.{h,cpp})

Numbers are those of a commutative group (exact). Names are ASCII text compared without case. The width and number of
digits of the printout are not modelled: a line is a name and a number.
-/
namespace Jdftx.Ener

open Jdftx.Input (Str)

variable {α : Type} [AddCommGroup α] [DecidableEq α]

/-- Order of names: core/string.h:39 `compare` (`strncasecmp` compares lower-case characters). -/
def low (k : Str) : List ℕ := k.map fun c => c.toLower.toNat

/-- `EnergyComponents` (EnergyComponents.h:39): the `std::map` as the list of its entries in ascending order. -/
abbrev Comps (α : Type) := List (Str × α)

/-- `f` applied to the reference from `operator[]` (EnergyComponents.h:43-45): a new entry starts at zero. An existing
one keeps its spelling. -/
def update (f : α → α) (k : Str) : Comps α → Comps α
  | [] => [(k, f 0)]
  | (k', v) :: rest =>
    if low k' = low k then (k', f v) :: rest
    else if low k < low k' then (k, f 0) :: (k', v) :: rest
    else (k', v) :: update f k rest

/-- EnergyComponents.h:49-51: `operator[]` of a constant object. -/
def read : Comps α → Str → α
  | [], _ => 0
  | (k', v) :: rest, k => if low k' = low k then v else read rest k

/-- What is done with the components. -/
inductive Op (α : Type) where
  /-- `E[k] = v` -/
  | set (k : Str) (v : α)
  /-- `E[k] += v` -/
  | add (k : Str) (v : α)
  /-- `E = v` -/
  | assign (v : α)
  /-- `E += v` -/
  | incr (v : α)

/-- The name of the component for plain numbers (EnergyComponents.h:56, 61). -/
def defaultName : Str := "default".toList

/-- EnergyComponents.h:43-45, 54-57, 60-62. -/
def step (m : Comps α) : Op α → Comps α
  | .set k v => update (fun _ => v) k m
  | .add k v => update (fun x => x + v) k m
  | .assign v => update (fun _ => v) defaultName []
  | .incr v => update (fun x => x + v) defaultName m

/-- EnergyComponents.h:66-72: conversion to a number. -/
def total (m : Comps α) : α := m.foldl (fun ret e => ret + e.2) 0

/-- EnergyComponents.h:83: the name without digits and dashes at its end (`npos + 1` is zero). -/
def reducedName (k : Str) : Str := (k.reverse.dropWhile fun c => c.isDigit || c = '-').reverse

/-- EnergyComponents.h:78-86 `print`: name and number of each line. -/
def lines (nonzeroOnly : Bool) (m : Comps α) : Comps α :=
  m.foldl (fun acc e => if !nonzeroOnly || e.2 ≠ 0 then update (fun x => x + e.2) (reducedName e.1) acc else acc) []

/-- Energies.h:36-44. -/
structure Energies (α : Type) where
  E : Comps α
  TS : α
  muN : α
  Eband : α

/-- Energies.h:39 `F`. -/
def Energies.F (e : Energies α) : α := total e.E - e.TS

/-- Energies.h:42 `G`. -/
def Energies.G (e : Energies α) : α := e.F - e.muN

/-- Energies.cpp:29-48 `print`. -/
def Energies.print (e : Energies α) : List (Str × α) :=
  if e.Eband ≠ 0 then [("Eband".toList, e.Eband)]
  else lines true e.E ++ [("Etot".toList, total e.E)]
    ++ (if e.TS ≠ 0 then [("TS".toList, e.TS), ("F".toList, e.F)] else [])
    ++ (if e.muN ≠ 0 then [("muN".toList, e.muN), ("G".toList, e.G)] else [])

/-- What `relevantFreeEnergy` looks at: `fixed_H`, fillings constant, no chemical potential given (`mu` is not a
number). -/
structure Mode where
  fixedH : Bool
  constFillings : Bool
  muNaN : Bool
  deriving DecidableEq

/-- Energies.cpp:51-56 `relevantFreeEnergy`. -/
def relevantFreeEnergy (md : Mode) (e : Energies α) : α :=
  if md.fixedH then e.Eband
  else if md.constFillings then total e.E
  else if md.muNaN then e.F
  else e.G

/-- Energies.cpp:57-62 `relevantFreeEnergyName`. -/
def relevantFreeEnergyName (md : Mode) : Str :=
  if md.fixedH then "Eband".toList
  else if md.constFillings then "Etot".toList
  else if md.muNaN then "F".toList
  else "G".toList

end Jdftx.Ener
