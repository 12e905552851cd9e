import Verif.Model.Wavelet
import Mathlib.Analysis.Real.Sqrt

/-!
The filter table of `dbwavf` and the real-number reading of the scalar functions.
-/

namespace WB

/-- `dbwavf`, sources/wavelet.cc:158-217: the decimal literals as exact rationals (in the program they are rounded to
`float`). Orders above 10 give the empty filter. -/
def dbCoeffs : ℕ → List ℚ
  | 1 => [0.50000000000000, 0.50000000000000]
  | 2 => [0.34150635094622, 0.59150635094587, 0.15849364905378, -0.09150635094587]
  | 3 => [0.23523360389270, 0.57055845791731, 0.32518250026371, -0.09546720778426, -0.06041610415535, 0.02490874986589]
  | 4 => [0.16290171402562, 0.50547285754565, 0.44610006912319, -0.01978751311791, -0.13225358368437, 0.02180815023739,
          0.02325180053556, -0.00749349466513]
  | 5 => [0.11320949129173, 0.42697177135271, 0.51216347213016, 0.09788348067375, -0.17132835769133, -0.02280056594205,
          0.05485132932108, -0.00441340005433, -0.00889593505093, 0.00235871396920]
  | 6 => [0.07887121600145072, 0.3497519070376178, 0.5311318799408691, 0.22291566146501776, -0.15999329944606142,
          -0.09175903203014758, 0.0689440464873723, 0.019461604854164663, -0.022331874165094537, 0.0003916255761485779,
          0.003378031181463938, -0.0007617669028012533]
  | 7 => [0.05504971537285, 0.28039564181304, 0.51557424581833, 0.33218624110566, -0.10175691123173, -0.15841750564054,
          0.05042323250485, 0.05700172257986, -0.02689122629486, -0.01171997078235, 0.00887489618962, 0.00030375749776,
          -0.00127395235906, 0.00025011342658]
  | 8 => [0.03847781105406, 0.22123362357624, 0.47774307521438, 0.41390826621166, -0.01119286766665, -0.20082931639111,
          0.00033409704628, 0.09103817842345, -0.01228195052300, -0.03117510332533, 0.00988607964808, 0.00618442240954,
          -0.00344385962813, -0.00027700227421, 0.00047761485533, -0.00008306863060]
  | 9 => [0.02692517479416, 0.17241715192471, 0.42767453217028, 0.46477285717278, 0.09418477475112, -0.20737588089628,
          -0.06847677451090, 0.10503417113714, 0.02172633772990, -0.04782363205882, 0.00017744640673, 0.01581208292614,
          -0.00333981011324, -0.00302748028715, 0.00130648364018, 0.00016290733601, -0.00017816487955, 0.00002782275679]
  | 10 => [0.01885857879640, 0.13306109139687, 0.37278753574266, 0.48681405536610, 0.19881887088440, -0.17666810089647,
          -0.13855493935993, 0.09006372426666, 0.06580149355070, -0.05048328559801, -0.02082962404385, 0.02348490704841,
          0.00255021848393, -0.00758950116768, 0.00098666268244, 0.00140884329496, -0.00048497391996, -0.00008235450295,
          0.00006617718320, -0.00000937920789]
  | _ => []

/-- The code read over the real numbers: exact literals, exact square root of two (sources/wavelet.cc:249), exact gain
(sources/wavelet_utils.cc:428-435). -/
noncomputable def codeKit : Kit ℝ where
  dbwavf t := (dbCoeffs t).map (fun q : ℚ => (q : ℝ))
  mulSqrt2 x := Real.sqrt 2 * x
  divFactor flag s x := x / (if flag then 2 else Real.sqrt 2) ^ s

theorem length_dbCoeffs {t : ℕ} (h1 : 1 ≤ t) (h2 : t ≤ 10) : (dbCoeffs t).length = 2 * t := by
  have : t = 1 ∨ t = 2 ∨ t = 3 ∨ t = 4 ∨ t = 5 ∨ t = 6 ∨ t = 7 ∨ t = 8 ∨ t = 9 ∨ t = 10 := by omega
  rcases this with rfl | rfl | rfl | rfl | rfl | rfl | rfl | rfl | rfl | rfl <;> rfl

end WB
