import Verif.Np.Nd

/-! Specification of pointwise evaluation and vectorised functions. -/

namespace Verif

variable {α β : Type}

/-- `row` is the particle `x[m, n, :]`. -/
def IsParticle (x : Nd α) (d m n : ℕ) (row : List α) : Prop :=
  row.length = d ∧ ∀ k < d, row[k]? = x.at? [m, n, k] ∧ (x.at? [m, n, k]).isSome

/-- `y` is the `(M, N)` array with entries `g(x[m, n, :])`. -/
def Pointwise (g : List α → β) (x : Nd α) (M N d : ℕ) (y : Nd β) : Prop :=
  y.shape = [M, N] ∧ y.WF ∧ ∀ m < M, ∀ n < N, ∃ row, IsParticle x d m n row ∧ y.at? [m, n] = some (g row)

/-- A function of a two-dimensional array that acts row by row through `g`, as users write it. -/
def Vectorised (g : List α → β) (f : Nd α → Nd β) : Prop :=
  ∀ (x : Nd α) (r d : ℕ), x.shape = [r, d] → x.WF →
    (f x).data.length = r ∧ ∀ i < r, ∃ row : List α, row.length = d ∧ (∀ k < d, row[k]? = x.at? [i, k]) ∧ (f x).data[i]? = some (g row)

end Verif
