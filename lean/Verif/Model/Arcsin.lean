import Verif.Ac.Types
import Verif.Ac.Loop

/-! # Models of ac_arcsin_cordic.h and ac_arccos_cordic.h (ac_fixed versions)

The functions rotate twice by the same angle in every step; the angles are in half turns. The argument type is signed, the output
of the arcsine is signed, that of the arccosine unsigned. -/

namespace Model.Arcsin
open Ac

/-- `x2_asin_pi_pow2_table` and `x2_acos_pi_pow2_table`, which have the same entries, in units of `2^-128`: each of the three
doubles of an entry is truncated to that unit before they are added. ac_arcsin_cordic.h:103-235, ac_arccos_cordic.h:101-233 -/
def table : List ℤ := [
    170141183460469231731687303715884105728, 100440205465688451065776737823964419775,
    53069846110495374870944062409867232071, 26939082528385408717150507000170849705, 13521816955831263739947375483648898803,
    6767500203898545548133300336084114664, 3384575876844695867358380957914720547, 1692391216975359583531864845835725946,
    846208520079618960894358081191867053, 423105874044211783753059635312697609, 211553138774387813698708931676151818,
    105776594606283261217356020568469321, 52888300455529490976096159230674803, 26444150621813280879992595304029813,
    13222075360162709015427677927919490, 6611037686238363131250211030504003, 3305518843888807645179884838344002,
    1652759422040607082584687735152197, 826379711032328948793261966468207, 413189855517667650334294962295456,
    206594927759021722159357016552267, 103297463879534348203704748264884, 51648731939770109992355655633010,
    25824365969885421982490738051013, 12912182984942756864534482806286, 6456091492471384166428380625786,
    3228045746235692799984332715725, 1614022873117846489588434158216, 807011436558923255993750554152,
    403505718279461629396816961456, 201752859139730814873401191275, 100876429569865407458574684456,
    50438214784932703732021603330, 25219107392466351866352584303, 12609553696233175933219014981,
    6304776848116587966614847844, 3152388424058293983308091466, 1576194212029146991654129176, 788097106014573495827075018,
    394048553007286747913538813, 197024276503643373956769569, 98512138251821686978384805, 49256069125910843489192405,
    24628034562955421744596202, 12314017281477710872298101, 6157008640738855436149050, 3078504320369427718074525,
    1539252160184713859037262, 769626080092356929518631, 384813040046178464759315, 192406520023089232379657,
    96203260011544616189828, 48101630005772308094914, 24050815002886154047457, 12025407501443077023728,
    6012703750721538511864, 3006351875360769255932, 1503175937680384627966, 751587968840192313983, 375793984420096156991,
    187896992210048078495, 93948496105024039247, 46974248052512019623, 23487124026256009811, 11743562013128004905,
    5871781006564002452, 2935890503282001226, 1467945251641000613, 733972625820500306, 366986312910250153,
    183493156455125076, 91746578227562538, 45873289113781269, 22936644556890634, 11468322278445317, 5734161139222658,
    2867080569611329, 1433540284805664, 716770142402832, 358385071201416, 179192535600708, 89596267800354, 44798133900177,
    22399066950088, 11199533475044, 5599766737522, 2799883368761, 1399941684380, 699970842190, 349985421095, 174992710547,
    87496355273, 43748177636, 21874088818, 10937044409, 5468522204, 2734261102, 1367130551, 683565275, 341782637, 170891318,
    85445659, 42722829, 21361414, 10680707, 5340353, 2670176, 1335088, 667544, 333772, 166886, 83443, 41721, 20860, 10430,
    5215, 2607, 1303, 651, 325, 162, 81, 40, 20, 10, 5, 2, 1, 0, 0]

/-- `x2_asin_pi_2mi<P_F>` and `x2_acos_pi_2mi<P_F>`; `none` would be a read beyond the table. ac_arcsin_cordic.h:237-247,
ac_arccos_cordic.h:235-243 -/
def angle (p i : ℕ) : Option ℚ :=
  if 129 < i then some 0 else table[i]?.map fun (r : ℤ) => (⟨p, 0, false, .TRN, .WRAP⟩ : Fmt).cvt ((r : ℚ) / 2 ^ 128)

/-- `P_F`. Output types without fraction bits do not compile. ac_arcsin_cordic.h:261, ac_arccos_cordic.h:257 -/
def pF (o : Fmt) : ℕ := (2 * (o.W - o.I)).toNat

/-- `dp_t`. ac_arcsin_cordic.h:266, ac_arccos_cordic.h:262 -/
def dp (p : ℕ) : Fmt := ⟨p + 5, 3, true, .TRN, .WRAP⟩

/-- `dp_theta_t`: `g` integer bits, one for the arcsine and two for the arccosine. ac_arcsin_cordic.h:267, ac_arccos_cordic.h:263 -/
def dpTheta (p : ℕ) (g : ℕ) : Fmt := ⟨p + g, g, true, .TRN, .WRAP⟩

/-- `x`, `y`, `tn` and `theta`. -/
structure St where
  x : ℚ
  y : ℚ
  tn : ℚ
  theta : ℚ
  deriving DecidableEq

/-- The variables before the loop. ac_arcsin_cordic.h:270-279, ac_arccos_cordic.h:266-275 -/
def start (p g : ℕ) (t : ℚ) : St :=
  ⟨(dp p).cvt (1 : ℚ), (dp p).cvt (0 : ℚ), (dp p).cvt (if t < 0 then (dp p).cvt (-t) else (dp p).cvt t), (dpTheta p g).cvt (0 : ℚ)⟩

/-- The body of the loop after `sel` is known. ac_arcsin_cordic.h:289-309, ac_arccos_cordic.h:279-294 -/
def rotate (p g i : ℕ) (sel : Bool) (s : St) : Option St := do
  let d := dp p
  let xd := d.shr s.y (i - 1)
  let yd := d.shr s.x (i - 1)
  let a ← angle p i
  let thd := (dpTheta p g).cvt a
  let tnd := d.shr s.tn (2 * i)
  let x := d.cvt (s.x - d.shr s.x (2 * i))
  let y := d.cvt (s.y - d.shr s.y (2 * i))
  if sel then some ⟨d.cvt (x - xd), d.cvt (y + yd), d.cvt (s.tn + tnd), (dpTheta p g).cvt (s.theta + thd)⟩
  else some ⟨d.cvt (x + xd), d.cvt (y - yd), d.cvt (s.tn + tnd), (dpTheta p g).cvt (s.theta - thd)⟩

/-- `sel` of the arcsine. ac_arcsin_cordic.h:282-288 -/
def selSin (p : ℕ) (s : St) : Bool :=
  let sel := (s.y ≤ s.tn ∧ 0 ≤ s.x) ∨ (s.tn < s.y ∧ s.x < 0)
  if 20 < p then decide (sel ∧ s.theta ≤ 1 / 2) else decide sel

/-- `sel` of the arccosine. ac_arccos_cordic.h:278 -/
def selCos (s : St) : Bool := decide ((s.tn ≤ s.x ∧ 0 ≤ s.y) ∨ (s.x < s.tn ∧ s.y < 0))

/-- The loop of the arcsine. ac_arcsin_cordic.h:270-310 -/
def runSin (p : ℕ) (t : ℚ) : Option St :=
  forUp (fun i s => s.bind fun s => rotate p 1 i (selSin p s) s) (p + 2) (some (start p 1 t))

/-- The loop of the arccosine. ac_arccos_cordic.h:266-295 -/
def runCos (p : ℕ) (t : ℚ) : Option St :=
  forUp (fun i s => s.bind fun s => rotate p 2 i (selCos s) s) (p + 2) (some (start p 2 t))

/-- `ac_arcsin_cordic`. ac_arcsin_cordic.h:257-316 -/
def arcsin (o : Fmt) (t : ℚ) : Option ℚ :=
  (runSin (pF o) t).map fun s => if (s.theta < 0) ≠ (t < 0) then o.cvt (-s.theta) else o.cvt s.theta

/-- `ac_arccos_cordic`. ac_arccos_cordic.h:253-308 -/
def arccos (o : Fmt) (t : ℚ) : Option ℚ :=
  let g := dpTheta (pF o) 2
  (runCos (pF o) t).map fun s =>
    let theta := if s.theta < 0 then g.cvt (-s.theta) else s.theta
    if t < 0 then o.cvt (g.cvt (1 : ℚ) - theta) else o.cvt theta

end Model.Arcsin
