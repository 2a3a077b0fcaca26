import Verif.Convex.RatioFindings

/-! All theorems about the convex optimisers. -/
