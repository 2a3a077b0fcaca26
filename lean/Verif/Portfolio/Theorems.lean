import Verif.Portfolio.CacheTheorems
import Verif.Portfolio.MultiTheorems
import Verif.Portfolio.ArithTheorems
import Verif.Portfolio.ScorerTheorems
import Verif.Portfolio.PopulationTheorems

/-! All claims about portfolios and populations. -/
