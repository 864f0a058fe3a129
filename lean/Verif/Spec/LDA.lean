import Verif.Model.LDA

/-!
# Specification for C72: the functionals as published

`ferro = false` are the parameters of the unpolarised gas, `ferro = true` those of the fully polarised one. Densities enter
through the Wigner-Seitz radius, the radius of a sphere holding one electron.
-/
namespace Jdftx.LDA
noncomputable section

/-- The sphere of this radius holds one electron at density `n`. -/
def IsRadius (rs n : ℝ) : Prop := 0 < rs ∧ n * (4 / 3 * Real.pi * rs ^ 3) = 1

/-- Dirac exchange energy per volume. -/
def diracExchange (n : ℝ) : ℝ := -(3 / 4) * (3 / Real.pi) ^ (1 / 3 : ℝ) * n ^ (4 / 3 : ℝ)

/-- Thomas-Fermi kinetic energy per volume. -/
def thomasFermi (n : ℝ) : ℝ := 3 / 10 * (3 * Real.pi ^ 2) ^ (2 / 3 : ℝ) * n ^ (5 / 3 : ℝ)

/-- Perdew and Zunger 1981, appendix C: correlation energy per electron. -/
def perdewZunger (ferro : Bool) (rs : ℝ) : ℝ :=
  match ferro with
  | false => if rs < 1 then 0.0311 * Real.log rs - 0.048 + 0.002 * rs * Real.log rs - 0.0116 * rs
             else -0.1423 / (1 + 1.0529 * Real.sqrt rs + 0.3334 * rs)
  | true => if rs < 1 then 0.01555 * Real.log rs - 0.0269 + 0.0007 * rs * Real.log rs - 0.0048 * rs
             else -0.0843 / (1 + 1.3981 * Real.sqrt rs + 0.2611 * rs)

/-- Perdew and Wang 1992, equation 10 with exponent `p = 1`. -/
def perdewWang (A a1 b1 b2 b3 b4 rs : ℝ) : ℝ :=
  -(2 * A) * (1 + a1 * rs) *
    Real.log (1 + 1 / (2 * A * (b1 * Real.sqrt rs + b2 * rs + b3 * (rs * Real.sqrt rs) + b4 * rs ^ 2)))

/-- Vosko, Wilk and Nusair 1980, equation 4.4, with `x = sqrt rs` and `X x = x^2 + b x + c`. -/
def voskoWilkNusair (A x0 b c rs : ℝ) : ℝ :=
  let X : ℝ → ℝ := fun x => x ^ 2 + b * x + c
  let Q := Real.sqrt (4 * c - b ^ 2)
  let x := Real.sqrt rs
  A * (Real.log (x ^ 2 / X x) + 2 * b / Q * Real.arctan (Q / (2 * x + b))
    - b * x0 / X x0 * (Real.log ((x - x0) ^ 2 / X x) + 2 * (b + 2 * x0) / Q * Real.arctan (Q / (2 * x + b))))

/-- von Barth and Hedin's interpolation function between unpolarised and fully polarised. -/
def barthHedin (zeta : ℝ) : ℝ :=
  ((1 + zeta) ^ (4 / 3 : ℝ) + (1 - zeta) ^ (4 / 3 : ℝ) - 2) / ((2 : ℝ) ^ (4 / 3 : ℝ) - 2)

/-- Vosko, Wilk and Nusair's interpolation with the spin stiffness `alpha` (minus what is tabulated). -/
def stiffInterpolation (para ferro minusAlpha f2 zeta : ℝ) : ℝ :=
  para - minusAlpha * (barthHedin zeta / f2) * (1 - zeta ^ 4) + (ferro - para) * barthHedin zeta * zeta ^ 4

/-- Goedecker, Teter and Hutter 1996: Pade fit, parameters moving with the interpolation function. -/
def goedeckerTeter (rs zeta : ℝ) : ℝ :=
  let f := barthHedin zeta;
  -((0.4581652932831429 + 0.119086804055547 * f) + (2.217058676663745 + 0.6157402568883345 * f) * rs
      + (0.7405551735357053 + 0.1574201515892867 * f) * rs ^ 2 + (0.01968227878617998 + 0.003532336663397157 * f) * rs ^ 3)
    / (rs + (4.504130959426697 + 0.2673612973836267 * f) * rs ^ 2 + (1.110667363742916 + 0.2052004607777787 * f) * rs ^ 3
      + (0.02359291751427506 + 0.004200005045691381 * f) * rs ^ 4)

/-- Correlation (Teter: exchange and correlation) energy per electron. -/
def published (c : Corr) (rs zeta : ℝ) : ℝ :=
  match c with
  | .pz => perdewZunger false rs + barthHedin zeta * (perdewZunger true rs - perdewZunger false rs)
  | .pw => stiffInterpolation (perdewWang 0.031091 0.21370 7.5957 3.5876 1.6382 0.49294 rs)
      (perdewWang 0.015545 0.20548 14.1189 6.1977 3.3662 0.62517 rs)
      (perdewWang 0.016887 0.11125 10.357 3.6231 0.88026 0.49671 rs) 1.709921 zeta
  | .pwPrec => stiffInterpolation (perdewWang 0.0310907 0.21370 7.5957 3.5876 1.6382 0.49294 rs)
      (perdewWang 0.01554535 0.20548 14.1189 6.1977 3.3662 0.62517 rs)
      (perdewWang 0.0168869 0.11125 10.357 3.6231 0.88026 0.49671 rs) (4 / (9 * ((2 : ℝ) ^ (1 / 3 : ℝ) - 1))) zeta
  | .vwn => stiffInterpolation (voskoWilkNusair 0.0310907 (-0.10498) 3.72744 12.9352 rs)
      (voskoWilkNusair 0.01554535 (-0.325) 7.06042 18.0578 rs)
      (voskoWilkNusair (1 / (6 * Real.pi ^ 2)) (-0.0047584) 1.13107 13.0045 rs) (4 / (9 * ((2 : ℝ) ^ (1 / 3 : ℝ) - 1))) zeta
  | .teter => goedeckerTeter rs zeta

end
end Jdftx.LDA
