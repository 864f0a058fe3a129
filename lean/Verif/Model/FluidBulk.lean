import Verif.Model.FluidMix

/-!
# Model of the bulk fluid
(jdftx/fluid/FluidMixture.cpp:38-85 `initialize` without the dielectric constants, 273-285 `compute_p`; FluidMixtureCompute.cpp:465-550 `computeUniformEx`)

Exact real arithmetic. `none` stands for a result that is not a number; comparisons with it are false. Loops have a bound on the number of iterations; reaching it is `diverge`.
-/
namespace Jdftx.Fluid
open Box ExCorr Cavity
noncomputable section

/-! ### The search for the density at a pressure (FluidMixture.cpp:48-76) -/

/-- `x > p`, for a value that may not be a number. -/
def gtO (x : Option ℝ) (p : ℝ) : Prop := ∃ v, x = some v ∧ p < v

/-- `x < p`, for a value that may not be a number. -/
def ltO (x : Option ℝ) (p : ℝ) : Prop := ∃ v, x = some v ∧ v < p

section
variable (P : ℝ → Option ℝ) (p : ℝ)

/-- Lines 52-59, from `Nlo`: the interval. -/
def bracketDown : Nat → ℝ → Res (ℝ × ℝ)
  | 0, _ => .error .diverge
  | k + 1, Nlo =>
    let Nhi := Nlo
    let Nlo := 0.99 * Nhi
    open Classical in if gtO (P Nlo) p then bracketDown k Nlo else .ok (Nlo, Nhi)

/-- Lines 60-67, from `Nhi`: the interval. -/
def bracketUp : Nat → ℝ → Res (ℝ × ℝ)
  | 0, _ => .error .diverge
  | k + 1, Nhi =>
    let Nlo := Nhi
    let Nhi := Nlo / 0.99
    open Classical in if ltO (P Nhi) p then bracketUp k Nhi else .ok (Nlo, Nhi)

/-- Lines 69-76: bisection. -/
def bisect : Nat → ℝ → ℝ → Res ℝ
  | 0, _, _ => .error .diverge
  | k + 1, Nlo, Nhi =>
    let Ntot := 0.5 * (Nlo + Nhi)
    open Classical in
    let Nlo' := if ltO (P Ntot) p then Ntot else Nlo
    let Nhi' := if ltO (P Ntot) p then Nhi else Ntot
    if Nhi' - Nlo' > 1e-12 * Nhi' then bisect k Nlo' Nhi' else .ok Ntot

/-- Lines 41-49: the first density that is tried. `n3` is the packing fraction at the density `Nguess`. -/
def startDensity (Nguess n3 : ℝ) : ℝ := open Classical in if n3 > 0.99 then Nguess * (0.99 / n3) else Nguess

/-- Lines 41-76: the density. -/
def findDensity (fuel : Nat) (Nguess n3 : ℝ) : Res ℝ := do
  let Nstart := startDensity Nguess n3
  let (Nlo, Nhi) ← (open Classical in if gtO (P Nstart) p then bracketDown P p fuel Nstart else bracketUp P p fuel Nstart)
  bisect P p fuel Nlo Nhi

end

/-! ### Uniform fluids (FluidMixtureCompute.cpp:465-550) -/

/-- A contribution to the energy density of a uniform fluid, and what it adds to `Phi_N`. -/
structure UTerm {C : Nat} (ns : Fin C → Nat) where
  E : ((c : Fin C) → Fin (ns c) → ℝ) → Option ℝ
  G : ((c : Fin C) → Fin (ns c) → ℝ) → (c : Fin C) → Fin (ns c) → ℝ

section
variable {C : Nat} {ns : Fin C → Nat}

/-- Line 476: charges do not contribute. -/
def uCoulomb : UTerm ns := ⟨fun _ => some 0, fun _ _ _ => 0⟩

/-- Lines 478-531: hard spheres and bonds. `pick` tells which sites are spheres. -/
def uSpheres (m : Mix C) (pick : (c : Fin C) → Fin (m.ns c) → Fin (ns c)) : UTerm ns where
  E := fun N => hardSphereU m fun c s => N c (pick c s)
  G := fun N c i => ∑ s, if pick c s = i then hardSphereGradU m (fun c s => N c (pick c s)) c s else 0

/-- Lines 533-535 for Fex_ScalarEOS.cpp:75-82: only the first site `s0` enters. -/
def uEos (c0 : Fin C) (s0 : Fin (ns c0)) (mult0 : Nat) (e : ℝ → Option (ℝ × ℝ)) : UTerm ns where
  E := fun N => (eosU e mult0 (N c0 s0)).map Prod.fst
  G := fun N c i => if h : c = c0 then if s0 = h ▸ i then ((eosU e mult0 (N c0 s0)).map Prod.snd).getD 0 else 0 else 0

/-- Lines 537-539 for Fmix_LJ and Fmix_GaussianKernel. -/
def uPair (c1 : Fin C) (s1 : Fin (ns c1)) (c2 : Fin C) (s2 : Fin (ns c2)) (a : ℝ) (w : Nat → ℝ) : UTerm ns where
  E := fun N => some (mixU a w (N c1 s1) (N c2 s2)).1
  G := fun N c i => (if h : c = c1 then if s1 = h ▸ i then (mixU a w (N c1 s1) (N c2 s2)).2.1 else 0 else 0)
    + (if h : c = c2 then if s2 = h ▸ i then (mixU a w (N c1 s1) (N c2 s2)).2.2 else 0 else 0)

/-- The sum of contributions. -/
def uSum (l : List (UTerm ns)) : UTerm ns where
  E := fun N => addO (l.map fun t => t.E N)
  G := fun N c i => (l.map fun t => t.G N c i).sum

variable (u : UTerm ns) (mult : (c : Fin C) → Fin (ns c) → Nat)

/-- Lines 466-472: site densities. `mult` is `positions.size()`. -/
def siteN (Nmol : Fin C → ℝ) : (c : Fin C) → Fin (ns c) → ℝ := fun c i => Nmol c * mult c i

/-- Lines 465-550 `computeUniformEx`: the energy density and `Phi_Nmol`. -/
def uniformEx (Nmol : Fin C → ℝ) : Option (ℝ × (Fin C → ℝ)) :=
  (u.E (siteN mult Nmol)).map fun a => (a, fun c => ∑ i, u.G (siteN mult Nmol) c i * mult c i)

variable (Nbulk : Fin C → ℝ)

/-- FluidMixture.cpp:79, 278: densities of the components, in the proportions of `Nbulk`. -/
def portions (Ntot : ℝ) (c : Fin C) : ℝ := (Ntot / ∑ c, Nbulk c) * Nbulk c

/-- FluidMixture.cpp:273-285 `compute_p`. -/
def computeP (T Ntot : ℝ) : Option ℝ :=
  (uniformEx u mult (portions Nbulk Ntot)).map fun r => Ntot * T - r.1 + ∑ c, portions Nbulk Ntot c * r.2 c

/-- FluidMixture.cpp:38-85 `initialize`: bulk densities and chemical potentials of the components, if numbers. `Vhs` is `molecule.getVhs()`. -/
def initBulk (fuel : Nat) (T p : ℝ) (Vhs : Fin C → ℝ) : Res (Option ((Fin C → ℝ) × (Fin C → ℝ))) := do
  let Ntot ← findDensity (computeP u mult Nbulk T) p fuel (∑ c, Nbulk c) (∑ c, Nbulk c * Vhs c)
  pure ((uniformEx u mult (portions Nbulk Ntot)).map fun r => (portions Nbulk Ntot, r.2))

end

/-! ### The mixture in its bulk state -/

/-- The components of a mixture before bulk densities and chemical potentials are known. -/
structure Recipe (C : Nat) where
  ns : Fin C → Nat
  /-- The ideal gas, for a chemical potential and a bulk density. -/
  gas : (c : Fin C) → ℝ → ℝ → Gas (ns c)
  mult : (c : Fin C) → Fin (ns c + 1) → Nat
  Q : Fin C → ℝ
  T : ℝ
  Qtol : ℝ
  terms : List (Term fun c => ns c + 1)

/-- FluidMixture.cpp:80-84: the mixture with the given bulk densities and chemical potentials. No number of molecules is prescribed, and there is no charge outside the fluid. -/
def Recipe.mix {C : Nat} (r : Recipe C) (p : ℝ) (Nmol mu : Fin C → ℝ) : MixF C where
  ns := r.ns
  comp := fun c => ⟨r.gas c (mu c) (Nmol c), r.mult c 0, 0, r.Q c⟩
  T := r.T
  p := p
  Qext := 0
  Qtol := r.Qtol
  terms := r.terms

end
end Jdftx.Fluid
