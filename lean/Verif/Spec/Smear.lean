import Verif.Model.Smear

/-!
# Specification for C43: electron number and magnetization
-/
namespace Jdftx.Smear
noncomputable section

/-- Number of electrons at chemical potential `mu` in a magnetic field `B`. -/
def electrons (k : Kind) (σ : ℝ) (l : List Q) (B mu : ℝ) : ℝ :=
  (l.map fun q => q.weight * (q.eps.map fun e => smear k σ (mu + B * q.spin) e).sum).sum

/-- Magnetization. -/
def magnetization (k : Kind) (σ : ℝ) (l : List Q) (B mu : ℝ) : ℝ :=
  (l.map fun q => q.spin * (q.weight * (q.eps.map fun e => smear k σ (mu + B * q.spin) e).sum)).sum

/-- Number of electrons with all bands filled. -/
def capacity (l : List Q) : ℝ := (l.map fun q => q.weight * (q.eps.length : ℝ)).sum

/-- Magnetization with the bands of one spin direction filled and those of the other empty. -/
def capUp (l : List Q) : ℝ := (l.map fun q => if 0 < q.spin then q.spin * (q.weight * (q.eps.length : ℝ)) else 0).sum
@[inherit_doc capUp]
def capDown (l : List Q) : ℝ := (l.map fun q => if q.spin < 0 then q.spin * (q.weight * (q.eps.length : ℝ)) else 0).sum

/-- Tolerance of the search on an interval. -/
def searchTol (σ lo hi : ℝ) : ℝ := max (1e-10 * σ) (1e-14 * max |lo| |hi|)

end
end Jdftx.Smear
