import Verif.Metrics.Model
import Verif.Metrics.Normal

/-!
Model of the choice of the predictive variance in the scores of a GP, gp.py:1761-2071, for test points whose posterior mean,
posterior variance and noise variance are given.
-/

namespace Verif.Metrics

/-- What `posterior_mean` and `posterior_covariance` return at `n` test points: `m(x)`, `v(x)` without noise, and the noise
variances that `add_noise` adds to `v(x)` (gp_posterior.py:554-569, modelled in `Verif.GP.addNoise`; zero if the noise is not
given by a function, gp_posterior.py:555). -/
structure Pred (n : ℕ) where
  mean : Fin n → ℝ
  var : Fin n → ℝ
  noise : Fin n → ℝ

variable {n : ℕ}

/-- `posterior_covariance(x_test, add_noise=b)["v(x)"]`, gp.py:1433-1468, gp_posterior.py:261. -/
def Pred.variance (p : Pred n) (addNoise : Bool) : Fin n → ℝ :=
  if addNoise then fun i => p.var i + p.noise i else p.var

/-- `nlpd(x_test, y_test)`, gp.py:1843-1852. -/
noncomputable def Pred.nlpd (p : Pred n) (y : Fin n → ℝ) : ℝ := Metrics.nlpd y p.mean (p.variance false)

/-- The first value of `crps(x_test, y_test)`, gp.py:1777-1782. -/
noncomputable def Pred.crps (p : Pred n) (y : Fin n → ℝ) : ℝ := Metrics.crps stdPdf stdCdf y p.mean (p.variance false)

/-- `msll(x_test, y_test)`, gp.py:2059-2071. -/
noncomputable def Pred.msll {N : ℕ} (data : Fin N → ℝ) (p : Pred n) (y : Fin n → ℝ) : ℝ :=
  Metrics.msll data y p.mean (p.variance false)

/-- `picp(x_test, y_true, interval)`, gp.py:1898-1908. -/
noncomputable def Pred.picp (ppf : ℝ → ℝ) (q : ℝ) (p : Pred n) (y : Fin n → ℝ) : ℝ :=
  Metrics.picp ppf y p.mean (p.variance true) q

/-- `interval_score(x_test, y_test, interval)`, gp.py:1980-1992. -/
noncomputable def Pred.intervalScore (ppf : ℝ → ℝ) (q : ℝ) (p : Pred n) (y : Fin n → ℝ) : ℝ :=
  Metrics.intervalScore ppf y p.mean (p.variance true) q

end Verif.Metrics
