import Verif.Model.NumLib
import Verif.Model.SimplicialComplex

/-!
# `pytspl/decomposition/hodge_decomposition.py` and `get_component_flow`
-/

namespace Pytspl

open Matrix

variable {n e t : ℕ}

/-- hodge_decomposition.py:17-42 `get_gradient_flow`. -/
noncomputable def getGradientFlow (lib : NumLib) (B1 : Matrix (Fin n) (Fin e) ℝ) (flow : Fin e → ℝ)
    (roundFig : Bool) (sig : ℤ) : Fin e → ℝ :=
  let p := lib.lstsq e n B1.transpose flow
  let gradientFlow := B1.transpose.mulVec p
  if roundFig then fun i => npRound (gradientFlow i) sig else gradientFlow

/-- hodge_decomposition.py:45-70 `get_curl_flow`. -/
noncomputable def getCurlFlow (lib : NumLib) (B2 : Matrix (Fin e) (Fin t) ℝ) (flow : Fin e → ℝ)
    (roundFig : Bool) (sig : ℤ) : Fin e → ℝ :=
  let w := lib.lstsq e t B2 flow
  let curlFlow := B2.mulVec w
  if roundFig then fun i => npRound (curlFlow i) sig else curlFlow

/-- hodge_decomposition.py:73-103 `get_harmonic_flow` (the inner calls use the default digit
count 2, which is irrelevant there). -/
noncomputable def getHarmonicFlow (lib : NumLib) (B1 : Matrix (Fin n) (Fin e) ℝ)
    (B2 : Matrix (Fin e) (Fin t) ℝ) (flow : Fin e → ℝ) (roundFig : Bool) (sig : ℤ) : Fin e → ℝ :=
  let gradientFlow := getGradientFlow lib B1 flow false 2
  let curlFlow := getCurlFlow lib B2 flow false 2
  let harmonicFlow := flow - gradientFlow - curlFlow
  if roundFig then fun i => npRound (harmonicFlow i) sig else harmonicFlow

/-- simplicial_complex.py:512-567 `get_component_flow`. -/
noncomputable def SC.getComponentFlow (lib : NumLib) (sc : SC ℝ) (flow : Fin sc.E → ℝ)
    (component : String := "gradient") (roundFig : Bool := true) (sig : ℤ := 2) :
    Py (Fin sc.E → ℝ) :=
  if component = "harmonic" then .ok (getHarmonicFlow lib sc.B1 sc.B2 flow roundFig sig)
  else if component = "curl" then .ok (getCurlFlow lib sc.B2 flow roundFig sig)
  else if component = "gradient" then .ok (getGradientFlow lib sc.B1 flow roundFig sig)
  else .error .valueError

end Pytspl
