import Verif.Model.Controller
/-!
# The limiter a controller has if it is not given another one
-/
namespace Aiok8s.RateLimiters
variable {α σ ε : Type} [DecidableEq α]

/-- A combined limiter as a limiter object (`default_rate_limiters.py` lines 81-93).  `num_requeues` without
parts, a `ValueError`, is read as 0 here; `maxNumRequeues` has it. -/
def maxIface (I : Iface σ α ε) : Iface (List σ) α ε where
  when ss x env := maxWhen I ss x env
  forget ss x := maxForget I ss x
  numRequeues ss x := (maxNumRequeues I ss x).getD 0

/-- `default_rate_limiters.py` lines 20-23, used by `rate_limiting_queue.new()` without an argument
(`rate_limiting_queue.py` lines 19-22, `controller.py` line 57). -/
def defaultIface : Iface (List (Part α)) α ℚ := maxIface partIface

end Aiok8s.RateLimiters
namespace Aiok8s.Controller
open RateLimiters

/-- A new controller (`controller.py` lines 57 and 73-76) at time `t` with `n` workers and the default
limiter. -/
def fresh {α : Type} (t : ℚ) (n : Nat) : State (List (Part α)) α := init defaultParts t n

end Aiok8s.Controller
