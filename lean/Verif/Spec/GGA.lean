import Verif.Spec.LDA
import Verif.Model.GGA
import Mathlib.Analysis.Calculus.Deriv.Basic

/-!
# Specification for C87: generalised gradient approximations as published

`n` is a density and `sigma` the square of its gradient.
-/
namespace Jdftx.GGA
noncomputable section

/-- Fermi wave vector of a uniform gas of density `n`. -/
def kF (n : ℝ) : ℝ := (3 * Real.pi ^ 2 * n) ^ (1 / 3 : ℝ)

/-- Square of the reduced gradient `s = |grad n| / (2 kF n)`. -/
def sSquared (n sigma : ℝ) : ℝ := sigma / (2 * kF n * n) ^ 2

/-- Perdew, Burke and Ernzerhof 1996, equation 14: `1 + kappa - kappa/(1 + mu s^2/kappa)`. -/
def pbeFactor (mu s2 : ℝ) : ℝ := 1 + 0.804 - 0.804 / (1 + mu * s2 / 0.804)

/-- Perdew et al. 1992, equation 8, in terms of `s`; Lembarki and Chermette 1994 use the same form for the kinetic energy. -/
def pw91Factor (P Q R S T U s : ℝ) : ℝ :=
  (1 + P * s * Real.arsinh (Q * s) + (R - S * Real.exp (-T * s ^ 2)) * s ^ 2) / (1 + P * s * Real.arsinh (Q * s) + U * s ^ 4)

/-- Energy density of a functional of a single density, other than the screened one. -/
def publishedX (v : XVar) (n sigma : ℝ) : ℝ :=
  match v with
  | .pbe => LDA.diracExchange n * pbeFactor 0.2195149727645171 (sSquared n sigma)
  | .pbesol => LDA.diracExchange n * pbeFactor (10 / 81) (sSquared n sigma)
  | .pw91 => LDA.diracExchange n * pw91Factor 0.19645 7.7956 0.2743 0.1508 100 0.004 (Real.sqrt (sSquared n sigma))
  | .vw => sigma / (8 * n)
  | .pw91k => LDA.thomasFermi n * pw91Factor 0.093907 76.320 0.26608 0.0809615 100 0.57767e-4 (Real.sqrt (sSquared n sigma))
  | .wpbe => 0

/-- Thomas-Fermi screening wave vector. -/
def ks (n : ℝ) : ℝ := Real.sqrt (4 * kF n / Real.pi)

/-- Spin scaling factor. -/
def phi (zeta : ℝ) : ℝ := ((1 + zeta) ^ (2 / 3 : ℝ) + (1 - zeta) ^ (2 / 3 : ℝ)) / 2

/-- Square of the reduced gradient `t = |grad n| / (2 phi ks n)`. -/
def tSquared (n zeta sigma : ℝ) : ℝ := sigma / (2 * phi zeta * ks n * n) ^ 2

/-- Perdew, Burke and Ernzerhof 1996, equations 7 and 8. -/
def pbeH (beta gamma ec phi t2 : ℝ) : ℝ :=
  let A := beta / gamma / (Real.exp (-ec / (gamma * phi ^ 3)) - 1)
  gamma * phi ^ 3 * Real.log (1 + beta / gamma * t2 * ((1 + A * t2) / (1 + A * t2 + A ^ 2 * t2 ^ 2)))

/-- Rasolt and Geldart's coefficient, as fitted by Perdew et al. 1992. -/
def rasoltGeldart (rs : ℝ) : ℝ :=
  (2.568 + 23.266 * rs + 7.389e-3 * rs ^ 2) / 1000 / (1 + 8.723 * rs + 0.472 * rs ^ 2 + 7.389e-2 * rs ^ 3)

/-- Perdew et al. 1992, equations 13 to 16. -/
def pw91H (rs ec n phi t2 : ℝ) : ℝ :=
  let nu := 16 / Real.pi * (3 * Real.pi ^ 2) ^ (1 / 3 : ℝ)
  let Cx := -0.001667
  let Cc : ℝ → ℝ := fun r => rasoltGeldart r - Cx
  let beta := nu * (0.002568 - Cx)
  let alpha := 0.09
  let A := 2 * alpha / beta / (Real.exp (-2 * alpha * ec / (phi ^ 3 * beta ^ 2)) - 1)
  let H0 := phi ^ 3 * (beta ^ 2 / (2 * alpha)) * Real.log (1 + 2 * alpha / beta * ((t2 + A * t2 ^ 2) / (1 + A * t2 + A ^ 2 * t2 ^ 2)))
  let H1 := nu * (Cc rs - Cc 0 - 3 * Cx / 7) * phi ^ 3 * t2 * Real.exp (-100 * phi ^ 4 * (ks n ^ 2 / kF n ^ 2) * t2)
  H0 + H1

/-- Correlation energy density. -/
def publishedC (v : CVar) (rs n zeta sigma : ℝ) : ℝ :=
  let gamma := (1 - Real.log 2) / Real.pi ^ 2
  match v with
  | .pbe => n * (LDA.published .pwPrec rs zeta + pbeH 0.06672455060314922 gamma (LDA.published .pwPrec rs zeta) (phi zeta) (tSquared n zeta sigma))
  | .pbesol => n * (LDA.published .pwPrec rs zeta + pbeH 0.046 gamma (LDA.published .pwPrec rs zeta) (phi zeta) (tSquared n zeta sigma))
  | .pw91 => n * (LDA.published .pw rs zeta + pw91H rs (LDA.published .pw rs zeta) n (phi zeta) (tSquared n zeta sigma))

/-- Where the energy of a functional of a single density can be differentiated: away from the cutoff and, for the screened
functional, at nonzero gradient and away from the two values of the reduced gradient where the definition changes. -/
def SmoothX (v : XVar) (n sigma : ℝ) : Prop :=
  0 < n ∧ n ≠ LDA.nCutoff ∧ (v = .wpbe → 0 < sigma ∧ sSquared n sigma ≠ 1 ∧ sSquared n sigma ≠ 225)

/-- Without spin: the reported derivatives are numbers, and along every curve of densities and squared gradients through the
point the energy changes at the rate they give. -/
def Derivatives1 (f : ℝ → ℝ → Out1) (n sigma : ℝ) : Prop :=
  ∃ dn ds, (f n sigma).E_n = some dn ∧ (f n sigma).E_sigma = some ds ∧
    ∀ (a b : ℝ → ℝ) (a' b' : ℝ), a 0 = n → b 0 = sigma → (∀ t, 0 ≤ b t) → HasDerivAt a a' 0 → HasDerivAt b b' 0 →
      HasDerivAt (fun t => (f (a t) (b t)).E) (dn * a' + ds * b') 0

/-- With spin: the same for two densities and the products of their gradients. -/
def Derivatives2 (f : ℝ → ℝ → ℝ → ℝ → ℝ → Out2) (n0 n1 s0 s1 s2 : ℝ) : Prop :=
  ∃ d0 d1 e0 e1 e2, (f n0 n1 s0 s1 s2).E_n0 = some d0 ∧ (f n0 n1 s0 s1 s2).E_n1 = some d1 ∧
    (f n0 n1 s0 s1 s2).E_s0 = some e0 ∧ (f n0 n1 s0 s1 s2).E_s1 = some e1 ∧ (f n0 n1 s0 s1 s2).E_s2 = some e2 ∧
    ∀ (a b p q r : ℝ → ℝ) (a' b' p' q' r' : ℝ), a 0 = n0 → b 0 = n1 → p 0 = s0 → q 0 = s1 → r 0 = s2 → (∀ t, 0 ≤ p t) → (∀ t, 0 ≤ r t) →
      HasDerivAt a a' 0 → HasDerivAt b b' 0 → HasDerivAt p p' 0 → HasDerivAt q q' 0 → HasDerivAt r r' 0 →
      HasDerivAt (fun t => (f (a t) (b t) (p t) (q t) (r t)).E) (d0 * a' + d1 * b' + e0 * p' + e1 * q' + e2 * r') 0

/-- Where the correlation energy can be differentiated: away from the cutoff, with both spins present. -/
def SmoothC (n0 n1 : ℝ) : Prop :=
  0 < n0 ∧ 0 < n1 ∧ n0 + n1 ≠ LDA.nCutoff ∧ LDA.nCutoff < 2 * n0 / (n0 + n1) ∧ LDA.nCutoff < 2 * n1 / (n0 + n1)

/-- Without spin. The potential-only functionals (GLLB-sc and LB94) are left out. -/
def Smooth1 (v : Variant) (n sigma : ℝ) : Prop :=
  match v with
  | .x v => SmoothX v n sigma
  | .c _ => 0 < n ∧ n ≠ LDA.nCutoff
  | _ => False

/-- With spin: functionals of a single density see twice the density of each spin, and four times its squared gradient. -/
def Smooth2 (v : Variant) (n0 n1 s0 s2 : ℝ) : Prop :=
  match v with
  | .x v => SmoothX v (2 * n0) (4 * s0) ∧ SmoothX v (2 * n1) (4 * s2)
  | .c _ => SmoothC n0 n1
  | _ => False

end
end Jdftx.GGA
