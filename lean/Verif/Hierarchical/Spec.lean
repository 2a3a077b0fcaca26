import Verif.Hierarchical.Model

/-!
# Hierarchical Risk Parity: recursive specification

`Alloc` says, without a work list, what recursive bisection is supposed to return: a budget handed
down the halves of the leaf order.
-/

set_option autoImplicit false

namespace Skfolio.Hierarchical

variable {K : Type*} [Field K] [LinearOrder K]

/-- `x` moved into the interval `[lo, hi]`. -/
def clamp (lo hi x : K) : K := min hi (max lo x)

/-- The share `a` given to the left half of a cluster holding the budget `W`: inversely
proportional to the risks of the two halves, then moved so that the left half can respect its
bounds, then so that the right half can. -/
def IsShare (risk : (ℕ → K) → K) (maxW minW : ℕ → K) (left right : List ℕ) (W a : K) : Prop :=
  ∃ l r, clusterRisk risk (unitaryRisks risk) left = .ok l ∧
    clusterRisk risk (unitaryRisks risk) right = .ok r ∧ l + r ≠ 0 ∧ W ≠ 0 ∧
    1 - a = clamp (sumAt minW right / W) (sumAt maxW right / W)
      (1 - clamp (sumAt minW left / W) (sumAt maxW left / W) (r / (l + r)))

/-- `Alloc cluster W w`: the weights `w` distribute the budget `W` over `cluster` by recursive
bisection. -/
inductive Alloc (risk : (ℕ → K) → K) (maxW minW : ℕ → K) : List ℕ → K → (ℕ → K) → Prop
  | single (i : ℕ) (w : ℕ → K) : Alloc risk maxW minW [i] (w i) w
  | split (left right : List ℕ) (W a : K) (w : ℕ → K)
      (hne : left ≠ []) (hne' : right ≠ [])
      (half : left.length = (left.length + right.length) / 2)
      (share : IsShare risk maxW minW left right W a)
      (hl : Alloc risk maxW minW left (W * a) w)
      (hr : Alloc risk maxW minW right (W * (1 - a)) w) :
      Alloc risk maxW minW (left ++ right) W w

end Skfolio.Hierarchical
