/- All modules about pools of queues. -/
import Verif.Pool.Counter
import Verif.Pool.Phased
