import Verif.Lemmas.GGAOuter

/-!
# Lemmas for C87: the code's formulas and the published ones
-/
namespace Jdftx.GGA
noncomputable section
open Jdftx.LDA (V1 V2 nCutoff rsOf)

theorem cbrt_sq (x : ℝ) (h : 0 ≤ x) : x ^ (2 / 3 : ℝ) = (x ^ 2) ^ (1 / 3 : ℝ) := by
  rw [← Real.rpow_natCast, ← Real.rpow_mul h]; norm_num

theorem sq_cbrt (x : ℝ) (h : 0 ≤ x) : (x ^ (1 / 3 : ℝ)) ^ 2 = x ^ (2 / 3 : ℝ) := by
  rw [← Real.rpow_natCast, ← Real.rpow_mul h]; norm_num

theorem inv_rs (n : ℝ) (h : 0 < n) : 1 / rsOf n = (4 * Real.pi / 3) ^ (1 / 3 : ℝ) * n ^ (1 / 3 : ℝ) := by
  have hp := Real.pi_pos
  unfold rsOf
  rw [one_div, ← Real.rpow_neg (by positivity), ← Real.mul_rpow (by positivity) h.le]
  norm_num

theorem slater_energy (n : ℝ) (h : 0 < n) : n * (slaterExchange (rsOf n)).e = LDA.diracExchange n := by
  have hp := Real.pi_pos
  have k : (4 * Real.pi / 3) ^ (1 / 3 : ℝ) * (1.5 / Real.pi) ^ (2 / 3 : ℝ) = (3 / Real.pi) ^ (1 / 3 : ℝ) := by
    rw [cbrt_sq (1.5 / Real.pi) (by positivity), ← Real.mul_rpow (by positivity) (by positivity)]
    congr 1
    field_simp
    norm_num
  simp only [slaterExchange, LDA.diracExchange]
  rw [LDA.pow43 n h.le, show (-1 : ℝ) / rsOf n = -(1 / rsOf n) by ring, inv_rs n h, ← k]
  norm_num
  ring

theorem kin_const : (1.5 * Real.pi * Real.pi) ^ (1 / 3 : ℝ) * (4 * Real.pi / 3) ^ (2 / 3 : ℝ) = 2 / 3 * (3 * Real.pi * Real.pi) ^ (2 / 3 : ℝ) := by
  have hp := Real.pi_pos
  have e : (2 / 3 : ℝ) = ((2 / 3 : ℝ) ^ 3) ^ (1 / 3 : ℝ) := by
    rw [← Real.rpow_natCast, ← Real.rpow_mul (by norm_num)]; norm_num
  rw [cbrt_sq _ (by positivity : (0 : ℝ) ≤ 4 * Real.pi / 3), cbrt_sq _ (by positivity : (0 : ℝ) ≤ 3 * Real.pi * Real.pi), ← Real.mul_rpow (by positivity) (by positivity)]
  conv_rhs => rw [show (2 / 3 : ℝ) * ((3 * Real.pi * Real.pi) ^ 2) ^ (1 / 3 : ℝ) = ((2 / 3 : ℝ) ^ 3) ^ (1 / 3 : ℝ) * ((3 * Real.pi * Real.pi) ^ 2) ^ (1 / 3 : ℝ) by rw [← e]]
  rw [← Real.mul_rpow (by positivity) (by positivity)]
  congr 1
  norm_num
  ring

theorem inv_rs_sq (n : ℝ) (h : 0 < n) : (1 / rsOf n) ^ 2 = (4 * Real.pi / 3) ^ (2 / 3 : ℝ) * n ^ (2 / 3 : ℝ) := by
  have hp := Real.pi_pos
  rw [inv_rs n h, mul_pow, sq_cbrt _ (by positivity), sq_cbrt _ h.le]

theorem tf_energy (n : ℝ) (h : 0 < n) : n * (tfKinetic (rsOf n)).e = LDA.thomasFermi n := by
  simp only [tfKinetic, LDA.thomasFermi]
  rw [inv_rs_sq n h, LDA.pow53 n h.le, show 3 * Real.pi ^ 2 = 3 * Real.pi * Real.pi by ring]
  linear_combination (n * n ^ (2 / 3 : ℝ) * (9 / 20)) * kin_const

theorem kF_sq (n : ℝ) (h : 0 < n) : kF n ^ 2 = (3 * Real.pi * Real.pi) ^ (2 / 3 : ℝ) * n ^ (2 / 3 : ℝ) := by
  have hp := Real.pi_pos
  unfold kF
  rw [sq_cbrt _ (by positivity), show 3 * Real.pi ^ 2 * n = (3 * Real.pi * Real.pi) * n by ring, Real.mul_rpow (by positivity) h.le]

theorem vw_energy (n sigma : ℝ) (h : 0 < n) : n * (vwKinetic (rsOf n) (sSquared n sigma)).e = sigma / (8 * n) := by
  have hp := Real.pi_pos
  have hk := kF_sq n h
  have q1 : 0 < n ^ (2 / 3 : ℝ) := by positivity
  have q2 : 0 < (3 * Real.pi * Real.pi) ^ (2 / 3 : ℝ) := by positivity
  have kc := kin_const
  simp only [vwKinetic, sSquared]
  rw [inv_rs_sq n h, show (2 * kF n * n) ^ 2 = 4 * kF n ^ 2 * n ^ 2 by ring, hk]
  rw [show n * (1 * 3 / 4 * (1.5 * Real.pi * Real.pi) ^ (1 / 3 : ℝ) * ((4 * Real.pi / 3) ^ (2 / 3 : ℝ) * n ^ (2 / 3 : ℝ)) *
      (sigma / (4 * ((3 * Real.pi * Real.pi) ^ (2 / 3 : ℝ) * n ^ (2 / 3 : ℝ)) * n ^ 2))) =
      n * (3 / 4) * ((1.5 * Real.pi * Real.pi) ^ (1 / 3 : ℝ) * (4 * Real.pi / 3) ^ (2 / 3 : ℝ)) * n ^ (2 / 3 : ℝ) *
      (sigma / (4 * ((3 * Real.pi * Real.pi) ^ (2 / 3 : ℝ) * n ^ (2 / 3 : ℝ)) * n ^ 2)) by ring, kc]
  field_simp
  ring

theorem sSquared_nonneg (n sigma : ℝ) (h : 0 ≤ sigma) : 0 ≤ sSquared n sigma := div_nonneg h (sq_nonneg _)

theorem pbe_factor (mu s2 : ℝ) (hm : 0 < mu) (hs : 0 ≤ s2) (rs : ℝ) : (pbeExchange 0.804 mu rs s2).e = (slaterExchange rs).e * pbeFactor mu s2 := by
  simp only [pbeExchange, pbeFactor]
  congr 1
  have h1 : (0.804 : ℝ) / mu + s2 ≠ 0 := by positivity
  have h2 : 1 + mu * s2 / (0.804 : ℝ) ≠ 0 := by positivity
  have e : (0.804 : ℝ) / mu + s2 = (0.804 / mu) * (1 + mu * s2 / 0.804) := by
    field_simp
  rw [e]
  generalize 1 + mu * s2 / (0.804 : ℝ) = q at *
  field_simp
  ring

theorem pw91_factor (P Q R S T U s2 : ℝ) (hs : 0 ≤ s2) : (pw91Enhancement P Q R S T U s2).1 = pw91Factor P Q R S T U (Real.sqrt s2) := by
  simp only [pw91Enhancement, pw91Factor]
  have h := Real.sq_sqrt hs
  have h4 : Real.sqrt s2 ^ 4 = s2 * s2 := by rw [show Real.sqrt s2 ^ 4 = (Real.sqrt s2 ^ 2) * (Real.sqrt s2 ^ 2) by ring, h]
  rw [h, h4]
  congr 1 <;> ring

theorem xTurn_energy (v : XVar) (hv : v ≠ .wpbe) (nCount scaleFac n sigma : ℝ) (hc : 0 < nCount) (h : nCutoff ≤ n * nCount) (hs : 0 ≤ sigma) :
    (xTurn v nCount scaleFac n sigma).E = scaleFac * (publishedX v (n * nCount) (nCount ^ 2 * sigma) / nCount) := by
  have hp : 0 < n * nCount := lt_of_lt_of_le (by norm_num [nCutoff]) h
  have hn : 0 < n := (pos_iff_pos_of_mul_pos hp).2 hc
  simp only [xTurn, if_neg (not_lt.2 h)]
  rw [s2_eq nCount n sigma hc hn]
  have h0 := sSquared_nonneg (n * nCount) (nCount ^ 2 * sigma) (by positivity)
  have key : ∀ e : ℝ, n * e = n * nCount * e / nCount := fun e => by field_simp
  rw [key]
  congr 2
  cases v with
  | pbe => simp only [evalX, publishedX]; rw [pbe_factor _ _ (by norm_num) h0, ← mul_assoc, slater_energy _ hp]
  | pbesol => simp only [evalX, publishedX]; rw [pbe_factor _ _ (by norm_num) h0, ← mul_assoc, slater_energy _ hp]
  | pw91 => simp only [evalX, publishedX, pw91Exchange]; rw [pw91_factor _ _ _ _ _ _ _ h0, ← mul_assoc, slater_energy _ hp]
  | wpbe => exact absurd rfl hv
  | vw => simp only [evalX, publishedX]; rw [vw_energy _ _ hp]
  | pw91k => simp only [evalX, publishedX, pw91Kinetic]; rw [pw91_factor _ _ _ _ _ _ _ h0, ← mul_assoc, tf_energy _ hp]

/-! ### Correlation -/

theorem gOf_eq (z : ℝ) : gOf z = phi z := by
  unfold gOf phi
  norm_num
  ring

theorem kF_pos (n : ℝ) (h : 0 < n) : 0 < kF n := by
  have := Real.pi_pos
  unfold kF
  positivity

theorem t2_eq (n z sigma : ℝ) (h : 0 < n) (hz : 0 < phi z) : t2Sigma n (phi z) * sigma = tSquared n z sigma := by
  have hp := Real.pi_pos
  have hk := kF_pos n h
  have k3 : (Real.pi / 3) ^ (1 / 3 : ℝ) * (3 * Real.pi ^ 2) ^ (1 / 3 : ℝ) = Real.pi := by
    rw [← Real.mul_rpow (by positivity) (by positivity), show Real.pi / 3 * (3 * Real.pi ^ 2) = Real.pi ^ 3 by ring, ← Real.rpow_natCast,
      ← Real.rpow_mul hp.le]
    norm_num
  have hkF : kF n = (3 * Real.pi ^ 2) ^ (1 / 3 : ℝ) * n ^ (1 / 3 : ℝ) := by
    unfold kF; rw [Real.mul_rpow (by positivity) h.le]
  have e1 : n ^ (-7 / 3 : ℝ) = (n ^ (1 / 3 : ℝ) * n ^ 2)⁻¹ := by
    rw [← Real.rpow_natCast n 2, ← Real.rpow_add h, ← Real.rpow_neg h.le]; norm_num
  have q1 : 0 < n ^ (1 / 3 : ℝ) := by positivity
  have q2 : 0 < (3 * Real.pi ^ 2) ^ (1 / 3 : ℝ) := by positivity
  unfold t2Sigma tSquared
  rw [show (2 * phi z * ks n * n) ^ 2 = 4 * phi z ^ 2 * ks n ^ 2 * n ^ 2 by ring, ks, Real.sq_sqrt (by positivity), hkF, e1]
  generalize (3 * Real.pi ^ 2) ^ (1 / 3 : ℝ) = a at *
  generalize (Real.pi / 3) ^ (1 / 3 : ℝ) = b at *
  generalize n ^ (1 / 3 : ℝ) = c at *
  have hb : 0 < b := by
    rw [← k3] at hp
    exact (pos_iff_pos_of_mul_pos hp).2 q2
  rw [← k3]
  field_simp
  ring

theorem H0_eq (beta gamma ec g t2 : ℝ) : (pw91H0 gamma beta (g * (g * g)) t2 ec).H = pbeH beta gamma ec g t2 := by
  simp only [pw91H0, pbeH]
  rw [show g * (g * g) = g ^ 3 by ring, show -ec / (gamma * g ^ 3) = -(ec / (gamma * g ^ 3)) by ring]
  rw [mul_one_div]
  congr 5
  ring

theorem ec_published (c : LDA.Corr) (rs z : ℝ) (h : 0 < rs) (h1 : -1 ≤ z) (h2 : z ≤ 1) : (LDA.eval c rs z).e = LDA.published c rs z :=
  LDA.eval_published c rs z h h1 h2

theorem ratio_eq (n rs : ℝ) (h : 0 < n) (hr : rsOf n = rs) : 100 * (ks n ^ 2 / kF n ^ 2) = pw91Sigma * rs := by
  have hp := Real.pi_pos
  have hk := kF_pos n h
  have hrp := LDA.rsOf_pos n h
  have h1 := inv_rs n h
  have hkF : kF n = (3 * Real.pi ^ 2) ^ (1 / 3 : ℝ) * n ^ (1 / 3 : ℝ) := by
    unfold kF; rw [Real.mul_rpow (by positivity) h.le]
  have q1 : 0 < n ^ (1 / 3 : ℝ) := by positivity
  have q2 : 0 < (3 * Real.pi ^ 2) ^ (1 / 3 : ℝ) := by positivity
  have q3 : 0 < (4 * Real.pi / 3) ^ (1 / 3 : ℝ) := by positivity
  have e2 : rs = 1 / ((4 * Real.pi / 3) ^ (1 / 3 : ℝ) * n ^ (1 / 3 : ℝ)) := by rw [← h1, ← hr, one_div_one_div]
  have kc : (16 / (3 * Real.pi * Real.pi)) ^ (2 / 3 : ℝ) * (3 * Real.pi ^ 2) ^ (1 / 3 : ℝ) * Real.pi = 4 * (4 * Real.pi / 3) ^ (1 / 3 : ℝ) := by
    have p3 : Real.pi = (Real.pi ^ 3) ^ (1 / 3 : ℝ) := by
      rw [← Real.rpow_natCast, ← Real.rpow_mul hp.le]; norm_num
    have f3 : (4 : ℝ) = (4 ^ 3 : ℝ) ^ (1 / 3 : ℝ) := by
      rw [← Real.rpow_natCast, ← Real.rpow_mul (by norm_num)]; norm_num
    rw [cbrt_sq _ (by positivity), ← Real.mul_rpow (by positivity) (by positivity)]
    conv_lhs => rw [show ∀ x : ℝ, x * Real.pi = x * (Real.pi ^ 3) ^ (1 / 3 : ℝ) from fun x => by rw [← p3]]
    conv_rhs => rw [show ∀ x : ℝ, 4 * x = (4 ^ 3 : ℝ) ^ (1 / 3 : ℝ) * x from fun x => by rw [← f3]]
    rw [← Real.mul_rpow (by positivity) (by positivity), ← Real.mul_rpow (by positivity) (by positivity)]
    congr 1
    field_simp
    norm_num
  unfold pw91Sigma
  rw [ks, Real.sq_sqrt (by positivity), e2, hkF]
  generalize (3 * Real.pi ^ 2) ^ (1 / 3 : ℝ) = a at *
  generalize (4 * Real.pi / 3) ^ (1 / 3 : ℝ) = b at *
  generalize n ^ (1 / 3 : ℝ) = c at *
  generalize (16 / (3 * Real.pi * Real.pi)) ^ (2 / 3 : ℝ) = d at *
  field_simp
  linear_combination -kc

theorem cPoint_energy (v : CVar) (scaleFac n z sigma rs : ℝ) (h : nCutoff ≤ n) (h1 : -1 ≤ z) (h2 : z ≤ 1) (hr : LDA.IsRadius rs n) :
    (cPoint v scaleFac n z sigma).1 = scaleFac * publishedC v rs n z sigma := by
  have hn : 0 < n := lt_of_lt_of_le (by norm_num [nCutoff]) h
  have hrs := LDA.radius_unique rs n hn hr
  have hph : 0 < phi z := by rw [← gOf_eq]; exact gOf_pos z h1 h2
  simp only [cPoint, if_neg (not_lt.2 h), hrs, gOf_eq, t2_eq n z sigma hn hph]
  congr 1
  cases v with
  | pbe =>
    simp only [evalC, pbeCorrelation, publishedC, H0_eq, ec_published _ rs z hr.1 h1 h2, pbeGamma]
    rw [sq]
  | pbesol =>
    simp only [evalC, pbeCorrelation, publishedC, H0_eq, ec_published _ rs z hr.1 h1 h2, pbeGamma]
    rw [sq]
  | pw91 =>
    simp only [evalC, pw91Correlation, publishedC, H0_eq, ec_published _ rs z hr.1 h1 h2, pw91H]
    have hb : pw91Beta = 16 / Real.pi * (3 * Real.pi ^ 2) ^ (1 / 3 : ℝ) * (0.002568 - -0.001667) := by
      unfold pw91Beta pw91Nu
      rw [show 3 * Real.pi * Real.pi = 3 * Real.pi ^ 2 by ring]
    have hbp := pw91Beta_pos
    have hnu : pw91Nu = 16 / Real.pi * (3 * Real.pi ^ 2) ^ (1 / 3 : ℝ) := by
      unfold pw91Nu; rw [show 3 * Real.pi * Real.pi = 3 * Real.pi ^ 2 by ring]
    rw [← hb, ← hnu]
    have hx : (pw91Cxc rs).1 - 2.568e-3 = rasoltGeldart rs - -0.001667 - (rasoltGeldart 0 - -0.001667) := by
      simp only [pw91Cxc, rasoltGeldart]
      have e1 : (2.568e-3 : ℝ) + rs * (2.3266e-2 + rs * 7.389e-6) = (2.568 + 23.266 * rs + 7.389e-3 * rs ^ 2) / 1000 := by ring
      have e2 : 1 + rs * (8.723 + rs * (0.472 + rs * (1e4 * 7.389e-6))) = 1 + 8.723 * rs + 0.472 * rs ^ 2 + 7.389e-2 * rs ^ 3 := by ring
      rw [e1, e2]
      norm_num
      ring
    rw [hx]
    generalize LDA.published .pw rs z = ec
    have hratio := ratio_eq n rs hn hrs
    rw [show -pw91Sigma * (phi z * phi z * (phi z * phi z)) * rs * tSquared n z sigma = -100 * phi z ^ 4 * (ks n ^ 2 / kF n ^ 2) * tSquared n z sigma by
      linear_combination (-phi z ^ 4 * tSquared n z sigma) * (-hratio)]
    generalize tSquared n z sigma = t2
    generalize Real.exp (-100 * phi z ^ 4 * (ks n ^ 2 / kF n ^ 2) * t2) = ex
    simp only [pbeH]
    generalize pw91Beta = b at *
    rw [show b / (b * b / (2 * 0.09)) = 2 * 0.09 / b by field_simp,
      show -ec / (b * b / (2 * 0.09) * phi z ^ 3) = -2 * 0.09 * ec / (phi z ^ 3 * b ^ 2) by field_simp]
    generalize 2 * 0.09 / b / (Real.exp (-2 * 0.09 * ec / (phi z ^ 3 * b ^ 2)) - 1) = A
    rw [show 2 * 0.09 / b * t2 * ((1 + A * t2) / (1 + A * t2 + A ^ 2 * t2 ^ 2)) = 2 * 0.09 / b * ((t2 + A * t2 ^ 2) / (1 + A * t2 + A ^ 2 * t2 ^ 2)) by ring]
    ring

end
end Jdftx.GGA
