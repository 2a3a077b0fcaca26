import Verif.Selection.BootTheorems
import Verif.Selection.DropTheorems
import Verif.Selection.SelectTheorems
import Verif.Selection.AgainTheorems
import Verif.Selection.OrderTheorems
