import Verif.Model.Integration

/-!
# The Gaussian tables

The 90 tables of `gaussian_tables/{legendre,hermite,laguerre}.rs`, literal by literal.  A literal is
kept as it is written in the source: a sign, its digits, and the number of decimal places.  Not
modelled: the rounding of a literal to the nearest `f64`.
-/

namespace Multicalc

/-- A decimal literal, `digits / 10 ^ places` with a sign. -/
structure Decimal where
  negative : Bool
  digits : ℕ
  places : ℕ

/-- The number a literal denotes. -/
def Decimal.value (d : Decimal) : ℚ :=
  (if d.negative then -1 else 1) * (d.digits / 10 ^ d.places)

namespace GaussianTables

/-- `LEGENDRE_1` (`legendre.rs:4-4`). -/
def legendre1 : List (Decimal × Decimal) := [(⟨false, 20, 1⟩, ⟨false, 0, 1⟩)]

/-- `LEGENDRE_2` (`legendre.rs:5-5`). -/
def legendre2 : List (Decimal × Decimal) := [
  (⟨false, 10, 1⟩, ⟨true, 5773502691896257, 16⟩),
  (⟨false, 10, 1⟩, ⟨false, 5773502691896257, 16⟩)]

/-- `LEGENDRE_3` (`legendre.rs:6-10`). -/
def legendre3 : List (Decimal × Decimal) := [
  (⟨false, 5555555555555557, 16⟩, ⟨true, 7745966692414834, 16⟩),
  (⟨false, 8888888888888888, 16⟩, ⟨false, 0, 1⟩),
  (⟨false, 5555555555555557, 16⟩, ⟨false, 7745966692414834, 16⟩)]

/-- `LEGENDRE_4` (`legendre.rs:11-16`). -/
def legendre4 : List (Decimal × Decimal) := [
  (⟨false, 3478548451374537, 16⟩, ⟨true, 8611363115940526, 16⟩),
  (⟨false, 6521451548625462, 16⟩, ⟨true, 33998104358485626, 17⟩),
  (⟨false, 6521451548625462, 16⟩, ⟨false, 33998104358485626, 17⟩),
  (⟨false, 3478548451374537, 16⟩, ⟨false, 8611363115940526, 16⟩)]

/-- `LEGENDRE_5` (`legendre.rs:17-23`). -/
def legendre5 : List (Decimal × Decimal) := [
  (⟨false, 23692688505618942, 17⟩, ⟨true, 906179845938664, 15⟩),
  (⟨false, 4786286704993662, 16⟩, ⟨true, 5384693101056831, 16⟩),
  (⟨false, 568888888888889, 15⟩, ⟨false, 0, 1⟩),
  (⟨false, 4786286704993662, 16⟩, ⟨false, 5384693101056831, 16⟩),
  (⟨false, 23692688505618942, 17⟩, ⟨false, 906179845938664, 15⟩)]

/-- `LEGENDRE_6` (`legendre.rs:24-31`). -/
def legendre6 : List (Decimal × Decimal) := [
  (⟨false, 17132449237916975, 17⟩, ⟨true, 932469514203152, 15⟩),
  (⟨false, 36076157304813894, 17⟩, ⟨true, 6612093864662645, 16⟩),
  (⟨false, 46791393457269137, 17⟩, ⟨true, 23861918608319693, 17⟩),
  (⟨false, 46791393457269137, 17⟩, ⟨false, 23861918608319693, 17⟩),
  (⟨false, 36076157304813894, 17⟩, ⟨false, 6612093864662645, 16⟩),
  (⟨false, 17132449237916975, 17⟩, ⟨false, 932469514203152, 15⟩)]

/-- `LEGENDRE_7` (`legendre.rs:32-40`). -/
def legendre7 : List (Decimal × Decimal) := [
  (⟨false, 12948496616887065, 17⟩, ⟨true, 9491079123427585, 16⟩),
  (⟨false, 2797053914892766, 16⟩, ⟨true, 7415311855993945, 16⟩),
  (⟨false, 3818300505051183, 16⟩, ⟨true, 4058451513773972, 16⟩),
  (⟨false, 41795918367346896, 17⟩, ⟨false, 0, 1⟩),
  (⟨false, 3818300505051183, 16⟩, ⟨false, 4058451513773972, 16⟩),
  (⟨false, 2797053914892766, 16⟩, ⟨false, 7415311855993945, 16⟩),
  (⟨false, 12948496616887065, 17⟩, ⟨false, 9491079123427585, 16⟩)]

/-- `LEGENDRE_8` (`legendre.rs:41-50`). -/
def legendre8 : List (Decimal × Decimal) := [
  (⟨false, 10122853629037669, 17⟩, ⟨true, 9602898564975362, 16⟩),
  (⟨false, 22238103445337434, 17⟩, ⟨true, 7966664774136267, 16⟩),
  (⟨false, 31370664587788705, 17⟩, ⟨true, 525532409916329, 15⟩),
  (⟨false, 36268378337836177, 17⟩, ⟨true, 18343464249564978, 17⟩),
  (⟨false, 36268378337836177, 17⟩, ⟨false, 18343464249564978, 17⟩),
  (⟨false, 31370664587788705, 17⟩, ⟨false, 525532409916329, 15⟩),
  (⟨false, 22238103445337434, 17⟩, ⟨false, 7966664774136267, 16⟩),
  (⟨false, 10122853629037669, 17⟩, ⟨false, 9602898564975362, 16⟩)]

/-- `LEGENDRE_9` (`legendre.rs:51-61`). -/
def legendre9 : List (Decimal × Decimal) := [
  (⟨false, 8127438836157472, 17⟩, ⟨true, 9681602395076261, 16⟩),
  (⟨false, 18064816069485712, 17⟩, ⟨true, 8360311073266358, 16⟩),
  (⟨false, 26061069640293566, 17⟩, ⟨true, 6133714327005904, 16⟩),
  (⟨false, 3123470770400028, 16⟩, ⟨true, 3242534234038089, 16⟩),
  (⟨false, 33023935500125967, 17⟩, ⟨false, 0, 1⟩),
  (⟨false, 3123470770400028, 16⟩, ⟨false, 3242534234038089, 16⟩),
  (⟨false, 26061069640293566, 17⟩, ⟨false, 6133714327005904, 16⟩),
  (⟨false, 18064816069485712, 17⟩, ⟨false, 8360311073266358, 16⟩),
  (⟨false, 8127438836157472, 17⟩, ⟨false, 9681602395076261, 16⟩)]

/-- `LEGENDRE_10` (`legendre.rs:62-73`). -/
def legendre10 : List (Decimal × Decimal) := [
  (⟨false, 6667134430868807, 17⟩, ⟨true, 9739065285171717, 16⟩),
  (⟨false, 14945134915058036, 17⟩, ⟨true, 8650633666889845, 16⟩),
  (⟨false, 219086362515982, 15⟩, ⟨true, 6794095682990244, 16⟩),
  (⟨false, 2692667193099965, 16⟩, ⟨true, 4333953941292472, 16⟩),
  (⟨false, 295524224714753, 15⟩, ⟨true, 14887433898163122, 17⟩),
  (⟨false, 295524224714753, 15⟩, ⟨false, 14887433898163122, 17⟩),
  (⟨false, 2692667193099965, 16⟩, ⟨false, 4333953941292472, 16⟩),
  (⟨false, 219086362515982, 15⟩, ⟨false, 6794095682990244, 16⟩),
  (⟨false, 14945134915058036, 17⟩, ⟨false, 8650633666889845, 16⟩),
  (⟨false, 6667134430868807, 17⟩, ⟨false, 9739065285171717, 16⟩)]

/-- `LEGENDRE_11` (`legendre.rs:74-86`). -/
def legendre11 : List (Decimal × Decimal) := [
  (⟨false, 55668567116173164, 18⟩, ⟨true, 978228658146057, 15⟩),
  (⟨false, 1255803694649047, 16⟩, ⟨true, 8870625997680953, 16⟩),
  (⟨false, 18629021092773443, 17⟩, ⟨true, 7301520055740494, 16⟩),
  (⟨false, 23319376459199068, 17⟩, ⟨true, 5190961292068118, 16⟩),
  (⟨false, 26280454451024676, 17⟩, ⟨true, 26954315595234496, 17⟩),
  (⟨false, 2729250867779009, 16⟩, ⟨false, 0, 1⟩),
  (⟨false, 26280454451024676, 17⟩, ⟨false, 26954315595234496, 17⟩),
  (⟨false, 23319376459199068, 17⟩, ⟨false, 5190961292068118, 16⟩),
  (⟨false, 18629021092773443, 17⟩, ⟨false, 7301520055740494, 16⟩),
  (⟨false, 1255803694649047, 16⟩, ⟨false, 8870625997680953, 16⟩),
  (⟨false, 55668567116173164, 18⟩, ⟨false, 978228658146057, 15⟩)]

/-- `LEGENDRE_12` (`legendre.rs:87-100`). -/
def legendre12 : List (Decimal × Decimal) := [
  (⟨false, 4717533638651202, 17⟩, ⟨true, 9815606342467192, 16⟩),
  (⟨false, 10693932599531888, 17⟩, ⟨true, 9041172563704748, 16⟩),
  (⟨false, 1600783285433461, 16⟩, ⟨true, 7699026741943047, 16⟩),
  (⟨false, 20316742672306565, 17⟩, ⟨true, 5873179542866175, 16⟩),
  (⟨false, 23349253653835464, 17⟩, ⟨true, 3678314989981802, 16⟩),
  (⟨false, 2491470458134027, 16⟩, ⟨true, 1252334085114689, 16⟩),
  (⟨false, 2491470458134027, 16⟩, ⟨false, 1252334085114689, 16⟩),
  (⟨false, 23349253653835464, 17⟩, ⟨false, 3678314989981802, 16⟩),
  (⟨false, 20316742672306565, 17⟩, ⟨false, 5873179542866175, 16⟩),
  (⟨false, 1600783285433461, 16⟩, ⟨false, 7699026741943047, 16⟩),
  (⟨false, 10693932599531888, 17⟩, ⟨false, 9041172563704748, 16⟩),
  (⟨false, 4717533638651202, 17⟩, ⟨false, 9815606342467192, 16⟩)]

/-- `LEGENDRE_13` (`legendre.rs:101-115`). -/
def legendre13 : List (Decimal × Decimal) := [
  (⟨false, 4048400476531588, 17⟩, ⟨true, 9841830547185881, 16⟩),
  (⟨false, 921214998377286, 16⟩, ⟨true, 9175983992229779, 16⟩),
  (⟨false, 13887351021978736, 17⟩, ⟨true, 8015780907333099, 16⟩),
  (⟨false, 17814598076194552, 17⟩, ⟨true, 6423493394403402, 16⟩),
  (⟨false, 20781604753688857, 17⟩, ⟨true, 4484927510364468, 16⟩),
  (⟨false, 22628318026289715, 17⟩, ⟨true, 23045831595513477, 17⟩),
  (⟨false, 2325515532308739, 16⟩, ⟨false, 0, 1⟩),
  (⟨false, 22628318026289715, 17⟩, ⟨false, 23045831595513477, 17⟩),
  (⟨false, 20781604753688857, 17⟩, ⟨false, 4484927510364468, 16⟩),
  (⟨false, 17814598076194552, 17⟩, ⟨false, 6423493394403402, 16⟩),
  (⟨false, 13887351021978736, 17⟩, ⟨false, 8015780907333099, 16⟩),
  (⟨false, 921214998377286, 16⟩, ⟨false, 9175983992229779, 16⟩),
  (⟨false, 4048400476531588, 17⟩, ⟨false, 9841830547185881, 16⟩)]

/-- `LEGENDRE_14` (`legendre.rs:116-131`). -/
def legendre14 : List (Decimal × Decimal) := [
  (⟨false, 35119460331752374, 18⟩, ⟨true, 9862838086968123, 16⟩),
  (⟨false, 801580871597603, 16⟩, ⟨true, 9284348836635735, 16⟩),
  (⟨false, 12151857068790296, 17⟩, ⟨true, 827201315069765, 15⟩),
  (⟨false, 1572031671581934, 16⟩, ⟨true, 6872929048116855, 16⟩),
  (⟨false, 18553839747793763, 17⟩, ⟨true, 5152486363581541, 16⟩),
  (⟨false, 20519846372129555, 17⟩, ⟨true, 31911236892788974, 17⟩),
  (⟨false, 21526385346315766, 17⟩, ⟨true, 10805494870734367, 17⟩),
  (⟨false, 21526385346315766, 17⟩, ⟨false, 10805494870734367, 17⟩),
  (⟨false, 20519846372129555, 17⟩, ⟨false, 31911236892788974, 17⟩),
  (⟨false, 18553839747793763, 17⟩, ⟨false, 5152486363581541, 16⟩),
  (⟨false, 1572031671581934, 16⟩, ⟨false, 6872929048116855, 16⟩),
  (⟨false, 12151857068790296, 17⟩, ⟨false, 827201315069765, 15⟩),
  (⟨false, 801580871597603, 16⟩, ⟨false, 9284348836635735, 16⟩),
  (⟨false, 35119460331752374, 18⟩, ⟨false, 9862838086968123, 16⟩)]

/-- `LEGENDRE_15` (`legendre.rs:132-148`). -/
def legendre15 : List (Decimal × Decimal) := [
  (⟨false, 30753241996118647, 18⟩, ⟨true, 9879925180204854, 16⟩),
  (⟨false, 7036604748810807, 17⟩, ⟨true, 937273392400706, 15⟩),
  (⟨false, 10715922046717177, 17⟩, ⟨true, 8482065834104272, 16⟩),
  (⟨false, 1395706779261539, 16⟩, ⟨true, 7244177313601701, 16⟩),
  (⟨false, 16626920581699378, 17⟩, ⟨true, 5709721726085388, 16⟩),
  (⟨false, 18616100001556188, 17⟩, ⟨true, 3941513470775634, 16⟩),
  (⟨false, 19843148532711125, 17⟩, ⟨true, 20119409399743451, 17⟩),
  (⟨false, 2025782419255609, 16⟩, ⟨false, 0, 1⟩),
  (⟨false, 19843148532711125, 17⟩, ⟨false, 20119409399743451, 17⟩),
  (⟨false, 18616100001556188, 17⟩, ⟨false, 3941513470775634, 16⟩),
  (⟨false, 16626920581699378, 17⟩, ⟨false, 5709721726085388, 16⟩),
  (⟨false, 1395706779261539, 16⟩, ⟨false, 7244177313601701, 16⟩),
  (⟨false, 10715922046717177, 17⟩, ⟨false, 8482065834104272, 16⟩),
  (⟨false, 7036604748810807, 17⟩, ⟨false, 937273392400706, 15⟩),
  (⟨false, 30753241996118647, 18⟩, ⟨false, 9879925180204854, 16⟩)]

/-- `LEGENDRE_16` (`legendre.rs:149-166`). -/
def legendre16 : List (Decimal × Decimal) := [
  (⟨false, 27152459411754037, 18⟩, ⟨true, 9894009349916499, 16⟩),
  (⟨false, 62253523938647706, 18⟩, ⟨true, 9445750230732326, 16⟩),
  (⟨false, 9515851168249259, 17⟩, ⟨true, 8656312023878318, 16⟩),
  (⟨false, 12462897125553403, 17⟩, ⟨true, 755404408355003, 15⟩),
  (⟨false, 14959598881657676, 17⟩, ⟨true, 6178762444026438, 16⟩),
  (⟨false, 16915651939500262, 17⟩, ⟨true, 45801677765722737, 17⟩),
  (⟨false, 1826034150449236, 16⟩, ⟨true, 2816035507792589, 16⟩),
  (⟨false, 18945061045506859, 17⟩, ⟨true, 9501250983763745, 17⟩),
  (⟨false, 18945061045506859, 17⟩, ⟨false, 9501250983763745, 17⟩),
  (⟨false, 1826034150449236, 16⟩, ⟨false, 2816035507792589, 16⟩),
  (⟨false, 16915651939500262, 17⟩, ⟨false, 45801677765722737, 17⟩),
  (⟨false, 14959598881657676, 17⟩, ⟨false, 6178762444026438, 16⟩),
  (⟨false, 12462897125553403, 17⟩, ⟨false, 755404408355003, 15⟩),
  (⟨false, 9515851168249259, 17⟩, ⟨false, 8656312023878318, 16⟩),
  (⟨false, 62253523938647706, 18⟩, ⟨false, 9445750230732326, 16⟩),
  (⟨false, 27152459411754037, 18⟩, ⟨false, 9894009349916499, 16⟩)]

/-- `LEGENDRE_17` (`legendre.rs:167-185`). -/
def legendre17 : List (Decimal × Decimal) := [
  (⟨false, 2414830286854952, 17⟩, ⟨true, 9905754753144174, 16⟩),
  (⟨false, 554595293739866, 16⟩, ⟨true, 9506755217687678, 16⟩),
  (⟨false, 8503614831717908, 17⟩, ⟨true, 8802391537269859, 16⟩),
  (⟨false, 11188384719340365, 17⟩, ⟨true, 7815140038968014, 16⟩),
  (⟨false, 13513636846852523, 17⟩, ⟨true, 6576711592166908, 16⟩),
  (⟨false, 15404576107681012, 17⟩, ⟨true, 5126905370864769, 16⟩),
  (⟨false, 16800410215644995, 17⟩, ⟨true, 3512317634538763, 16⟩),
  (⟨false, 17656270536699253, 17⟩, ⟨true, 17848418149584785, 17⟩),
  (⟨false, 17944647035620653, 17⟩, ⟨false, 0, 1⟩),
  (⟨false, 17656270536699253, 17⟩, ⟨false, 17848418149584785, 17⟩),
  (⟨false, 16800410215644995, 17⟩, ⟨false, 3512317634538763, 16⟩),
  (⟨false, 15404576107681012, 17⟩, ⟨false, 5126905370864769, 16⟩),
  (⟨false, 13513636846852523, 17⟩, ⟨false, 6576711592166908, 16⟩),
  (⟨false, 11188384719340365, 17⟩, ⟨false, 7815140038968014, 16⟩),
  (⟨false, 8503614831717908, 17⟩, ⟨false, 8802391537269859, 16⟩),
  (⟨false, 554595293739866, 16⟩, ⟨false, 9506755217687678, 16⟩),
  (⟨false, 2414830286854952, 17⟩, ⟨false, 9905754753144174, 16⟩)]

/-- `LEGENDRE_18` (`legendre.rs:186-205`). -/
def legendre18 : List (Decimal × Decimal) := [
  (⟨false, 2161601352648413, 17⟩, ⟨true, 9915651684209309, 16⟩),
  (⟨false, 4971454889496922, 17⟩, ⟨true, 9558239495713978, 16⟩),
  (⟨false, 7642573025488925, 17⟩, ⟨true, 8926024664975557, 16⟩),
  (⟨false, 10094204410628699, 17⟩, ⟨true, 8037049589725231, 16⟩),
  (⟨false, 12255520671147836, 17⟩, ⟨true, 6916870430603532, 16⟩),
  (⟨false, 14064291467065063, 17⟩, ⟨true, 5597708310739475, 16⟩),
  (⟨false, 15468467512626521, 17⟩, ⟨true, 41175116146284263, 17⟩),
  (⟨false, 16427648374583273, 17⟩, ⟨true, 2518862256915055, 16⟩),
  (⟨false, 16914238296314363, 17⟩, ⟨true, 8477501304173529, 17⟩),
  (⟨false, 16914238296314363, 17⟩, ⟨false, 8477501304173529, 17⟩),
  (⟨false, 16427648374583273, 17⟩, ⟨false, 2518862256915055, 16⟩),
  (⟨false, 15468467512626521, 17⟩, ⟨false, 41175116146284263, 17⟩),
  (⟨false, 14064291467065063, 17⟩, ⟨false, 5597708310739475, 16⟩),
  (⟨false, 12255520671147836, 17⟩, ⟨false, 6916870430603532, 16⟩),
  (⟨false, 10094204410628699, 17⟩, ⟨false, 8037049589725231, 16⟩),
  (⟨false, 7642573025488925, 17⟩, ⟨false, 8926024664975557, 16⟩),
  (⟨false, 4971454889496922, 17⟩, ⟨false, 9558239495713978, 16⟩),
  (⟨false, 2161601352648413, 17⟩, ⟨false, 9915651684209309, 16⟩)]

/-- `LEGENDRE_19` (`legendre.rs:206-226`). -/
def legendre19 : List (Decimal × Decimal) := [
  (⟨false, 1946178822972761, 17⟩, ⟨true, 9924068438435844, 16⟩),
  (⟨false, 4481422676569981, 17⟩, ⟨true, 96020815213483, 14⟩),
  (⟨false, 6904454273764107, 17⟩, ⟨true, 9031559036148179, 16⟩),
  (⟨false, 9149002162244985, 17⟩, ⟨true, 8227146565371428, 16⟩),
  (⟨false, 11156664554733375, 17⟩, ⟨true, 7209661773352294, 16⟩),
  (⟨false, 1287539625393362, 16⟩, ⟨true, 600545304661681, 15⟩),
  (⟨false, 14260670217360638, 17⟩, ⟨true, 46457074137596094, 17⟩),
  (⟨false, 15276604206585945, 17⟩, ⟨true, 31656409996362983, 17⟩),
  (⟨false, 15896884339395415, 17⟩, ⟨true, 1603586456402254, 16⟩),
  (⟨false, 16105444984878345, 17⟩, ⟨false, 0, 1⟩),
  (⟨false, 15896884339395415, 17⟩, ⟨false, 1603586456402254, 16⟩),
  (⟨false, 15276604206585945, 17⟩, ⟨false, 31656409996362983, 17⟩),
  (⟨false, 14260670217360638, 17⟩, ⟨false, 46457074137596094, 17⟩),
  (⟨false, 1287539625393362, 16⟩, ⟨false, 600545304661681, 15⟩),
  (⟨false, 11156664554733375, 17⟩, ⟨false, 7209661773352294, 16⟩),
  (⟨false, 9149002162244985, 17⟩, ⟨false, 8227146565371428, 16⟩),
  (⟨false, 6904454273764107, 17⟩, ⟨false, 9031559036148179, 16⟩),
  (⟨false, 4481422676569981, 17⟩, ⟨false, 96020815213483, 14⟩),
  (⟨false, 1946178822972761, 17⟩, ⟨false, 9924068438435844, 16⟩)]

/-- `LEGENDRE_20` (`legendre.rs:227-248`). -/
def legendre20 : List (Decimal × Decimal) := [
  (⟨false, 17614007139153273, 18⟩, ⟨true, 9931285991850949, 16⟩),
  (⟨false, 4060142980038622, 17⟩, ⟨true, 9639719272779138, 16⟩),
  (⟨false, 6267204833410944, 17⟩, ⟨true, 9122344282513258, 16⟩),
  (⟨false, 8327674157670467, 17⟩, ⟨true, 8391169718222188, 16⟩),
  (⟨false, 10193011981724026, 17⟩, ⟨true, 7463319064601508, 16⟩),
  (⟨false, 11819453196151825, 17⟩, ⟨true, 636053680726515, 15⟩),
  (⟨false, 13168863844917653, 17⟩, ⟨true, 5108670019508271, 16⟩),
  (⟨false, 14209610931838187, 17⟩, ⟨true, 37370608871541955, 17⟩),
  (⟨false, 14917298647260366, 17⟩, ⟨true, 2277858511416451, 16⟩),
  (⟨false, 15275338713072578, 17⟩, ⟨true, 7652652113349734, 17⟩),
  (⟨false, 15275338713072578, 17⟩, ⟨false, 7652652113349734, 17⟩),
  (⟨false, 14917298647260366, 17⟩, ⟨false, 2277858511416451, 16⟩),
  (⟨false, 14209610931838187, 17⟩, ⟨false, 37370608871541955, 17⟩),
  (⟨false, 13168863844917653, 17⟩, ⟨false, 5108670019508271, 16⟩),
  (⟨false, 11819453196151825, 17⟩, ⟨false, 636053680726515, 15⟩),
  (⟨false, 10193011981724026, 17⟩, ⟨false, 7463319064601508, 16⟩),
  (⟨false, 8327674157670467, 17⟩, ⟨false, 8391169718222188, 16⟩),
  (⟨false, 6267204833410944, 17⟩, ⟨false, 9122344282513258, 16⟩),
  (⟨false, 4060142980038622, 17⟩, ⟨false, 9639719272779138, 16⟩),
  (⟨false, 17614007139153273, 18⟩, ⟨false, 9931285991850949, 16⟩)]

/-- `LEGENDRE_21` (`legendre.rs:249-271`). -/
def legendre21 : List (Decimal × Decimal) := [
  (⟨false, 16017228257774137, 18⟩, ⟨true, 9937521706203895, 16⟩),
  (⟨false, 3695378977085292, 17⟩, ⟨true, 9672268385663063, 16⟩),
  (⟨false, 57134425426857156, 18⟩, ⟨true, 9200993341504008, 16⟩),
  (⟨false, 7610011362837935, 17⟩, ⟨true, 8533633645833173, 16⟩),
  (⟨false, 9344442345603382, 17⟩, ⟨true, 7684399634756779, 16⟩),
  (⟨false, 10879729916714831, 17⟩, ⟨true, 6671388041974123, 16⟩),
  (⟨false, 12183141605372842, 17⟩, ⟨true, 5516188358872198, 16⟩),
  (⟨false, 13226893863333739, 17⟩, ⟨true, 4243421202074388, 16⟩),
  (⟨false, 13988739479107312, 17⟩, ⟨true, 2880213168024011, 16⟩),
  (⟨false, 14452440398997007, 17⟩, ⟨true, 1455618541608951, 16⟩),
  (⟨false, 14608113364969047, 17⟩, ⟨false, 0, 1⟩),
  (⟨false, 14452440398997007, 17⟩, ⟨false, 1455618541608951, 16⟩),
  (⟨false, 13988739479107312, 17⟩, ⟨false, 2880213168024011, 16⟩),
  (⟨false, 13226893863333739, 17⟩, ⟨false, 4243421202074388, 16⟩),
  (⟨false, 12183141605372842, 17⟩, ⟨false, 5516188358872198, 16⟩),
  (⟨false, 10879729916714831, 17⟩, ⟨false, 6671388041974123, 16⟩),
  (⟨false, 9344442345603382, 17⟩, ⟨false, 7684399634756779, 16⟩),
  (⟨false, 7610011362837935, 17⟩, ⟨false, 8533633645833173, 16⟩),
  (⟨false, 57134425426857156, 18⟩, ⟨false, 9200993341504008, 16⟩),
  (⟨false, 3695378977085292, 17⟩, ⟨false, 9672268385663063, 16⟩),
  (⟨false, 16017228257774137, 18⟩, ⟨false, 9937521706203895, 16⟩)]

/-- `LEGENDRE_22` (`legendre.rs:272-295`). -/
def legendre22 : List (Decimal × Decimal) := [
  (⟨false, 14627995298274705, 18⟩, ⟨true, 9942945854823992, 16⟩),
  (⟨false, 3377490158481518, 17⟩, ⟨true, 9700604978354287, 16⟩),
  (⟨false, 5229333515268287, 17⟩, ⟨true, 926956772187174, 15⟩),
  (⟨false, 697964684245202, 16⟩, ⟨true, 8658125777203002, 16⟩),
  (⟨false, 859416062170674, 16⟩, ⟨true, 7878168059792081, 16⟩),
  (⟨false, 10041414444288072, 17⟩, ⟨true, 6944872631866827, 16⟩),
  (⟨false, 11293229608053883, 17⟩, ⟨true, 5876404035069116, 16⟩),
  (⟨false, 12325237681051199, 17⟩, ⟨true, 46935583798675706, 17⟩),
  (⟨false, 13117350478706188, 17⟩, ⟨true, 34193582089208424, 17⟩),
  (⟨false, 13654149834601478, 17⟩, ⟨true, 2078604266882213, 16⟩),
  (⟨false, 13925187285563156, 17⟩, ⟨true, 6973927331972221, 17⟩),
  (⟨false, 13925187285563156, 17⟩, ⟨false, 6973927331972221, 17⟩),
  (⟨false, 13654149834601478, 17⟩, ⟨false, 2078604266882213, 16⟩),
  (⟨false, 13117350478706188, 17⟩, ⟨false, 34193582089208424, 17⟩),
  (⟨false, 12325237681051199, 17⟩, ⟨false, 46935583798675706, 17⟩),
  (⟨false, 11293229608053883, 17⟩, ⟨false, 5876404035069116, 16⟩),
  (⟨false, 10041414444288072, 17⟩, ⟨false, 6944872631866827, 16⟩),
  (⟨false, 859416062170674, 16⟩, ⟨false, 7878168059792081, 16⟩),
  (⟨false, 697964684245202, 16⟩, ⟨false, 8658125777203002, 16⟩),
  (⟨false, 5229333515268287, 17⟩, ⟨false, 926956772187174, 15⟩),
  (⟨false, 3377490158481518, 17⟩, ⟨false, 9700604978354287, 16⟩),
  (⟨false, 14627995298274705, 18⟩, ⟨false, 9942945854823992, 16⟩)]

/-- `LEGENDRE_23` (`legendre.rs:296-320`). -/
def legendre23 : List (Decimal × Decimal) := [
  (⟨false, 13411859487141846, 18⟩, ⟨true, 9947693349975522, 16⟩),
  (⟨false, 30988005856979497, 18⟩, ⟨true, 9725424712181152, 16⟩),
  (⟨false, 4803767173108495, 17⟩, ⟨true, 9329710868260161, 16⟩),
  (⟨false, 6423242140852606, 17⟩, ⟨true, 8767523582704416, 16⟩),
  (⟨false, 7928141177671887, 17⟩, ⟨true, 8048884016188399, 16⟩),
  (⟨false, 9291576606003524, 17⟩, ⟨true, 7186613631319502, 16⟩),
  (⟨false, 10489209146454138, 17⟩, ⟨true, 6196098757636461, 16⟩),
  (⟨false, 1149966402224113, 16⟩, ⟨true, 5095014778460075, 16⟩),
  (⟨false, 12304908430672945, 17⟩, ⟨true, 3903010380302908, 16⟩),
  (⟨false, 128905722188082, 15⟩, ⟨true, 26413568097034495, 17⟩),
  (⟨false, 13246203940469642, 17⟩, ⟨true, 1332568242984661, 16⟩),
  (⟨false, 13365457218610594, 17⟩, ⟨false, 0, 1⟩),
  (⟨false, 13246203940469642, 17⟩, ⟨false, 1332568242984661, 16⟩),
  (⟨false, 128905722188082, 15⟩, ⟨false, 26413568097034495, 17⟩),
  (⟨false, 12304908430672945, 17⟩, ⟨false, 3903010380302908, 16⟩),
  (⟨false, 1149966402224113, 16⟩, ⟨false, 5095014778460075, 16⟩),
  (⟨false, 10489209146454138, 17⟩, ⟨false, 6196098757636461, 16⟩),
  (⟨false, 9291576606003524, 17⟩, ⟨false, 7186613631319502, 16⟩),
  (⟨false, 7928141177671887, 17⟩, ⟨false, 8048884016188399, 16⟩),
  (⟨false, 6423242140852606, 17⟩, ⟨false, 8767523582704416, 16⟩),
  (⟨false, 4803767173108495, 17⟩, ⟨false, 9329710868260161, 16⟩),
  (⟨false, 30988005856979497, 18⟩, ⟨false, 9725424712181152, 16⟩),
  (⟨false, 13411859487141846, 18⟩, ⟨false, 9947693349975522, 16⟩)]

/-- `LEGENDRE_24` (`legendre.rs:321-346`). -/
def legendre24 : List (Decimal × Decimal) := [
  (⟨false, 12341229799987091, 18⟩, ⟨true, 9951872199970213, 16⟩),
  (⟨false, 28531388628933743, 18⟩, ⟨true, 9747285559713095, 16⟩),
  (⟨false, 4427743881741955, 17⟩, ⟨true, 9382745520027328, 16⟩),
  (⟨false, 5929858491543674, 17⟩, ⟨true, 886415527004401, 15⟩),
  (⟨false, 7334648141108041, 17⟩, ⟨true, 820001985973903, 15⟩),
  (⟨false, 8619016153195329, 17⟩, ⟨true, 7401241915785544, 16⟩),
  (⟨false, 9761865210411406, 17⟩, ⟨true, 6480936519369755, 16⟩),
  (⟨false, 1074442701159656, 16⟩, ⟨true, 5454214713888396, 16⟩),
  (⟨false, 11550566805372561, 17⟩, ⟨true, 4337935076260451, 16⟩),
  (⟨false, 12167047292780342, 17⟩, ⟨true, 3150426796961634, 16⟩),
  (⟨false, 1258374563468283, 16⟩, ⟨true, 1911188674736163, 16⟩),
  (⟨false, 12793819534675221, 17⟩, ⟨true, 6405689286260563, 17⟩),
  (⟨false, 12793819534675221, 17⟩, ⟨false, 6405689286260563, 17⟩),
  (⟨false, 1258374563468283, 16⟩, ⟨false, 1911188674736163, 16⟩),
  (⟨false, 12167047292780342, 17⟩, ⟨false, 3150426796961634, 16⟩),
  (⟨false, 11550566805372561, 17⟩, ⟨false, 4337935076260451, 16⟩),
  (⟨false, 1074442701159656, 16⟩, ⟨false, 5454214713888396, 16⟩),
  (⟨false, 9761865210411406, 17⟩, ⟨false, 6480936519369755, 16⟩),
  (⟨false, 8619016153195329, 17⟩, ⟨false, 7401241915785544, 16⟩),
  (⟨false, 7334648141108041, 17⟩, ⟨false, 820001985973903, 15⟩),
  (⟨false, 5929858491543674, 17⟩, ⟨false, 886415527004401, 15⟩),
  (⟨false, 4427743881741955, 17⟩, ⟨false, 9382745520027328, 16⟩),
  (⟨false, 28531388628933743, 18⟩, ⟨false, 9747285559713095, 16⟩),
  (⟨false, 12341229799987091, 18⟩, ⟨false, 9951872199970213, 16⟩)]

/-- `LEGENDRE_25` (`legendre.rs:347-373`). -/
def legendre25 : List (Decimal × Decimal) := [
  (⟨false, 11393798501027593, 18⟩, ⟨true, 995556969790498, 15⟩),
  (⟨false, 26354986615031908, 18⟩, ⟨true, 9766639214595175, 16⟩),
  (⟨false, 409391567013065, 16⟩, ⟨true, 9429745712289743, 16⟩),
  (⟨false, 5490469597583544, 17⟩, ⟨true, 8949919978782753, 16⟩),
  (⟨false, 6803833381235701, 17⟩, ⟨true, 833442628760834, 15⟩),
  (⟨false, 8014070033500098, 17⟩, ⟨true, 7592592630373576, 16⟩),
  (⟨false, 9102826198296338, 17⟩, ⟨true, 6735663684734684, 16⟩),
  (⟨false, 10053594906705049, 17⟩, ⟨true, 577662930241223, 15⟩),
  (⟨false, 10851962447426344, 17⟩, ⟨true, 473002731445715, 15⟩),
  (⟨false, 11485825914571146, 17⟩, ⟨true, 36117230580938786, 17⟩),
  (⟨false, 1194557635357845, 16⟩, ⟨true, 24386688372098841, 17⟩),
  (⟨false, 12224244299030987, 17⟩, ⟨true, 1228646926107104, 16⟩),
  (⟨false, 12317605372671524, 17⟩, ⟨false, 0, 1⟩),
  (⟨false, 12224244299030987, 17⟩, ⟨false, 1228646926107104, 16⟩),
  (⟨false, 1194557635357845, 16⟩, ⟨false, 24386688372098841, 17⟩),
  (⟨false, 11485825914571146, 17⟩, ⟨false, 36117230580938786, 17⟩),
  (⟨false, 10851962447426344, 17⟩, ⟨false, 473002731445715, 15⟩),
  (⟨false, 10053594906705049, 17⟩, ⟨false, 577662930241223, 15⟩),
  (⟨false, 9102826198296338, 17⟩, ⟨false, 6735663684734684, 16⟩),
  (⟨false, 8014070033500098, 17⟩, ⟨false, 7592592630373576, 16⟩),
  (⟨false, 6803833381235701, 17⟩, ⟨false, 833442628760834, 15⟩),
  (⟨false, 5490469597583544, 17⟩, ⟨false, 8949919978782753, 16⟩),
  (⟨false, 409391567013065, 16⟩, ⟨false, 9429745712289743, 16⟩),
  (⟨false, 26354986615031908, 18⟩, ⟨false, 9766639214595175, 16⟩),
  (⟨false, 11393798501027593, 18⟩, ⟨false, 995556969790498, 15⟩)]

/-- `LEGENDRE_26` (`legendre.rs:374-401`). -/
def legendre26 : List (Decimal × Decimal) := [
  (⟨false, 10551372617343395, 18⟩, ⟨true, 9958857011456169, 16⟩),
  (⟨false, 24417851092631938, 18⟩, ⟨true, 9783854459564709, 16⟩),
  (⟨false, 3796238329436312, 17⟩, ⟨true, 9471590666617142, 16⟩),
  (⟨false, 5097582529714808, 17⟩, ⟨true, 9026378619843071, 16⟩),
  (⟨false, 6327404632957467, 17⟩, ⟨true, 845445942788498, 15⟩),
  (⟨false, 7468414976565976, 17⟩, ⟨true, 7763859488206788, 16⟩),
  (⟨false, 8504589431348507, 17⟩, ⟨true, 6964272604199573, 16⟩),
  (⟨false, 9421380035591416, 17⟩, ⟨true, 6066922930176181, 16⟩),
  (⟨false, 10205916109442532, 17⟩, ⟨true, 5084407148245057, 16⟩),
  (⟨false, 10847184052857647, 17⟩, ⟨true, 4030517551234863, 16⟩),
  (⟨false, 11336181654631956, 17⟩, ⟨true, 2920048394859569, 16⟩),
  (⟨false, 11666044348529646, 17⟩, ⟨true, 17685882035689018, 17⟩),
  (⟨false, 11832141527926213, 17⟩, ⟨true, 5923009342931321, 17⟩),
  (⟨false, 11832141527926213, 17⟩, ⟨false, 5923009342931321, 17⟩),
  (⟨false, 11666044348529646, 17⟩, ⟨false, 17685882035689018, 17⟩),
  (⟨false, 11336181654631956, 17⟩, ⟨false, 2920048394859569, 16⟩),
  (⟨false, 10847184052857647, 17⟩, ⟨false, 4030517551234863, 16⟩),
  (⟨false, 10205916109442532, 17⟩, ⟨false, 5084407148245057, 16⟩),
  (⟨false, 9421380035591416, 17⟩, ⟨false, 6066922930176181, 16⟩),
  (⟨false, 8504589431348507, 17⟩, ⟨false, 6964272604199573, 16⟩),
  (⟨false, 7468414976565976, 17⟩, ⟨false, 7763859488206788, 16⟩),
  (⟨false, 6327404632957467, 17⟩, ⟨false, 845445942788498, 15⟩),
  (⟨false, 5097582529714808, 17⟩, ⟨false, 9026378619843071, 16⟩),
  (⟨false, 3796238329436312, 17⟩, ⟨false, 9471590666617142, 16⟩),
  (⟨false, 24417851092631938, 18⟩, ⟨false, 9783854459564709, 16⟩),
  (⟨false, 10551372617343395, 18⟩, ⟨false, 9958857011456169, 16⟩)]

/-- `LEGENDRE_27` (`legendre.rs:402-430`). -/
def legendre27 : List (Decimal × Decimal) := [
  (⟨false, 9798996051294204, 18⟩, ⟨true, 9961792628889885, 16⟩),
  (⟨false, 22686231596180995, 18⟩, ⟨true, 9799234759615012, 16⟩),
  (⟨false, 3529705375741918, 17⟩, ⟨true, 9509005578147051, 16⟩),
  (⟨false, 47449412520615374, 18⟩, ⟨true, 9094823206774911, 16⟩),
  (⟨false, 5898353685983364, 17⟩, ⟨true, 8562079080182945, 16⟩),
  (⟨false, 6974882376624564, 17⟩, ⟨true, 7917716390705083, 16⟩),
  (⟨false, 7960486777305782, 17⟩, ⟨true, 7170134737394237, 16⟩),
  (⟨false, 8842315854375683, 17⟩, ⟨true, 6329079719464952, 16⟩),
  (⟨false, 960887273700285, 16⟩, ⟨true, 540551564579457, 15⟩),
  (⟨false, 10250163781774586, 17⟩, ⟨true, 44114825175002687, 17⟩),
  (⟨false, 10757828578853317, 17⟩, ⟨true, 3359939036385089, 16⟩),
  (⟨false, 11125248835684516, 17⟩, ⟨true, 22645936543953685, 17⟩),
  (⟨false, 1134763461089652, 16⟩, ⟨true, 11397258560952997, 17⟩),
  (⟨false, 11422086737895706, 17⟩, ⟨false, 0, 1⟩),
  (⟨false, 1134763461089652, 16⟩, ⟨false, 11397258560952997, 17⟩),
  (⟨false, 11125248835684516, 17⟩, ⟨false, 22645936543953685, 17⟩),
  (⟨false, 10757828578853317, 17⟩, ⟨false, 3359939036385089, 16⟩),
  (⟨false, 10250163781774586, 17⟩, ⟨false, 44114825175002687, 17⟩),
  (⟨false, 960887273700285, 16⟩, ⟨false, 540551564579457, 15⟩),
  (⟨false, 8842315854375683, 17⟩, ⟨false, 6329079719464952, 16⟩),
  (⟨false, 7960486777305782, 17⟩, ⟨false, 7170134737394237, 16⟩),
  (⟨false, 6974882376624564, 17⟩, ⟨false, 7917716390705083, 16⟩),
  (⟨false, 5898353685983364, 17⟩, ⟨false, 8562079080182945, 16⟩),
  (⟨false, 47449412520615374, 18⟩, ⟨false, 9094823206774911, 16⟩),
  (⟨false, 3529705375741918, 17⟩, ⟨false, 9509005578147051, 16⟩),
  (⟨false, 22686231596180995, 18⟩, ⟨false, 9799234759615012, 16⟩),
  (⟨false, 9798996051294204, 18⟩, ⟨false, 9961792628889885, 16⟩)]

/-- `LEGENDRE_28` (`legendre.rs:431-460`). -/
def legendre28 : List (Decimal × Decimal) := [
  (⟨false, 9124282593094397, 18⟩, ⟨true, 9964424975739544, 16⟩),
  (⟨false, 2113211259277127, 17⟩, ⟨true, 9813031653708728, 16⟩),
  (⟨false, 3290142778230452, 17⟩, ⟨true, 9542592806289382, 16⟩),
  (⟨false, 44272934759003985, 18⟩, ⟨true, 9156330263921321, 16⟩),
  (⟨false, 55107345675716936, 18⟩, ⟨true, 865892522574395, 15⟩),
  (⟨false, 6527292396699975, 17⟩, ⟨true, 8056413709171791, 16⟩),
  (⟨false, 7464621423456881, 17⟩, ⟨true, 7356108780136318, 16⟩),
  (⟨false, 8311341722890093, 17⟩, ⟨true, 656651094038865, 15⟩),
  (⟨false, 9057174439303285, 17⟩, ⟨true, 5697204718114017, 16⟩),
  (⟨false, 9693065799792992, 17⟩, ⟨true, 4758742249551183, 16⟩),
  (⟨false, 10211296757806078, 17⟩, ⟨true, 3762515160890787, 16⟩),
  (⟨false, 10605576592284637, 17⟩, ⟨true, 2720616276351781, 16⟩),
  (⟨false, 10871119225829413, 17⟩, ⟨true, 1645692821333808, 16⟩),
  (⟨false, 11004701301647524, 17⟩, ⟨true, 55079289884034266, 18⟩),
  (⟨false, 11004701301647524, 17⟩, ⟨false, 55079289884034266, 18⟩),
  (⟨false, 10871119225829413, 17⟩, ⟨false, 1645692821333808, 16⟩),
  (⟨false, 10605576592284637, 17⟩, ⟨false, 2720616276351781, 16⟩),
  (⟨false, 10211296757806078, 17⟩, ⟨false, 3762515160890787, 16⟩),
  (⟨false, 9693065799792992, 17⟩, ⟨false, 4758742249551183, 16⟩),
  (⟨false, 9057174439303285, 17⟩, ⟨false, 5697204718114017, 16⟩),
  (⟨false, 8311341722890093, 17⟩, ⟨false, 656651094038865, 15⟩),
  (⟨false, 7464621423456881, 17⟩, ⟨false, 7356108780136318, 16⟩),
  (⟨false, 6527292396699975, 17⟩, ⟨false, 8056413709171791, 16⟩),
  (⟨false, 55107345675716936, 18⟩, ⟨false, 865892522574395, 15⟩),
  (⟨false, 44272934759003985, 18⟩, ⟨false, 9156330263921321, 16⟩),
  (⟨false, 3290142778230452, 17⟩, ⟨false, 9542592806289382, 16⟩),
  (⟨false, 2113211259277127, 17⟩, ⟨false, 9813031653708728, 16⟩),
  (⟨false, 9124282593094397, 18⟩, ⟨false, 9964424975739544, 16⟩)]

/-- `LEGENDRE_29` (`legendre.rs:461-491`). -/
def legendre29 : List (Decimal × Decimal) := [
  (⟨false, 8516903878747237, 18⟩, ⟨true, 9966794422605966, 16⟩),
  (⟨false, 19732085056123293, 18⟩, ⟨true, 9825455052614132, 16⟩),
  (⟨false, 3074049220209336, 17⟩, ⟨true, 9572855957780877, 16⟩),
  (⟨false, 4140206251868274, 17⟩, ⟨true, 9211802329530587, 16⟩),
  (⟨false, 51594826902497753, 18⟩, ⟨true, 8746378049201028, 16⟩),
  (⟨false, 6120309065707902, 17⟩, ⟨true, 8181854876152524, 16⟩),
  (⟨false, 7011793325505114, 17⟩, ⟨true, 7524628517344771, 16⟩),
  (⟨false, 7823832713576369, 17⟩, ⟨true, 6782145376026865, 16⟩),
  (⟨false, 854722573661724, 16⟩, ⟨true, 5962817971382278, 16⟩),
  (⟨false, 917377571392587, 16⟩, ⟨true, 5075929551242276, 16⟩),
  (⟨false, 9696383409440848, 17⟩, ⟨true, 41315288817400864, 17⟩),
  (⟨false, 10109127375991488, 17⟩, ⟨true, 31403163786763993, 17⟩),
  (⟨false, 10407331007772933, 17⟩, ⟨true, 21135228616600107, 17⟩),
  (⟨false, 10587615509732079, 17⟩, ⟨true, 10627823013267923, 17⟩),
  (⟨false, 10647938171831416, 17⟩, ⟨false, 0, 1⟩),
  (⟨false, 10587615509732079, 17⟩, ⟨false, 10627823013267923, 17⟩),
  (⟨false, 10407331007772933, 17⟩, ⟨false, 21135228616600107, 17⟩),
  (⟨false, 10109127375991488, 17⟩, ⟨false, 31403163786763993, 17⟩),
  (⟨false, 9696383409440848, 17⟩, ⟨false, 41315288817400864, 17⟩),
  (⟨false, 917377571392587, 16⟩, ⟨false, 5075929551242276, 16⟩),
  (⟨false, 854722573661724, 16⟩, ⟨false, 5962817971382278, 16⟩),
  (⟨false, 7823832713576369, 17⟩, ⟨false, 6782145376026865, 16⟩),
  (⟨false, 7011793325505114, 17⟩, ⟨false, 7524628517344771, 16⟩),
  (⟨false, 6120309065707902, 17⟩, ⟨false, 8181854876152524, 16⟩),
  (⟨false, 51594826902497753, 18⟩, ⟨false, 8746378049201028, 16⟩),
  (⟨false, 4140206251868274, 17⟩, ⟨false, 9211802329530587, 16⟩),
  (⟨false, 3074049220209336, 17⟩, ⟨false, 9572855957780877, 16⟩),
  (⟨false, 19732085056123293, 18⟩, ⟨false, 9825455052614132, 16⟩),
  (⟨false, 8516903878747237, 18⟩, ⟨false, 9966794422605966, 16⟩)]

/-- `LEGENDRE_30` (`legendre.rs:492-523`). -/
def legendre30 : List (Decimal × Decimal) := [
  (⟨false, 7968192496169523, 18⟩, ⟨true, 9968934840746495, 16⟩),
  (⟨false, 18466468311091087, 18⟩, ⟨true, 9836681232797473, 16⟩),
  (⟨false, 28784707883322873, 18⟩, ⟨true, 9600218649683075, 16⟩),
  (⟨false, 3879919256962679, 17⟩, ⟨true, 9262000474292743, 16⟩),
  (⟨false, 48402672830594434, 18⟩, ⟨true, 8825605357920526, 16⟩),
  (⟨false, 5749315621761909, 17⟩, ⟨true, 8295657623827684, 16⟩),
  (⟨false, 6597422988218032, 17⟩, ⟨true, 7677774321048262, 16⟩),
  (⟨false, 737559747377048, 16⟩, ⟨true, 6978504947933158, 16⟩),
  (⟨false, 8075589522941981, 17⟩, ⟨true, 6205261829892429, 16⟩),
  (⟨false, 868997872010827, 16⟩, ⟨true, 5366241481420199, 16⟩),
  (⟨false, 9212252223778579, 17⟩, ⟨true, 44703376953808915, 17⟩),
  (⟨false, 9636873717464399, 17⟩, ⟨true, 3527047255308781, 16⟩),
  (⟨false, 9959342058679493, 17⟩, ⟨true, 25463692616788985, 17⟩),
  (⟨false, 10176238974840521, 17⟩, ⟨true, 15386991360858354, 17⟩),
  (⟨false, 10285265289355848, 17⟩, ⟨true, 514718425553177, 16⟩),
  (⟨false, 10285265289355848, 17⟩, ⟨false, 514718425553177, 16⟩),
  (⟨false, 10176238974840521, 17⟩, ⟨false, 15386991360858354, 17⟩),
  (⟨false, 9959342058679493, 17⟩, ⟨false, 25463692616788985, 17⟩),
  (⟨false, 9636873717464399, 17⟩, ⟨false, 3527047255308781, 16⟩),
  (⟨false, 9212252223778579, 17⟩, ⟨false, 44703376953808915, 17⟩),
  (⟨false, 868997872010827, 16⟩, ⟨false, 5366241481420199, 16⟩),
  (⟨false, 8075589522941981, 17⟩, ⟨false, 6205261829892429, 16⟩),
  (⟨false, 737559747377048, 16⟩, ⟨false, 6978504947933158, 16⟩),
  (⟨false, 6597422988218032, 17⟩, ⟨false, 7677774321048262, 16⟩),
  (⟨false, 5749315621761909, 17⟩, ⟨false, 8295657623827684, 16⟩),
  (⟨false, 48402672830594434, 18⟩, ⟨false, 8825605357920526, 16⟩),
  (⟨false, 3879919256962679, 17⟩, ⟨false, 9262000474292743, 16⟩),
  (⟨false, 28784707883322873, 18⟩, ⟨false, 9600218649683075, 16⟩),
  (⟨false, 18466468311091087, 18⟩, ⟨false, 9836681232797473, 16⟩),
  (⟨false, 7968192496169523, 18⟩, ⟨false, 9968934840746495, 16⟩)]

/-- `LEGENDRE` (`legendre.rs:525-557`). -/
def legendre : List (List (Decimal × Decimal)) :=
  [[], legendre1, legendre2, legendre3, legendre4, legendre5, legendre6, legendre7, legendre8, legendre9, legendre10,
    legendre11, legendre12, legendre13, legendre14, legendre15, legendre16, legendre17, legendre18, legendre19, legendre20,
    legendre21, legendre22, legendre23, legendre24, legendre25, legendre26, legendre27, legendre28, legendre29, legendre30]

/-- `HERMITE_1` (`hermite.rs:4-4`). -/
def hermite1 : List (Decimal × Decimal) := [(⟨false, 17724538509055159, 16⟩, ⟨false, 0, 1⟩)]

/-- `HERMITE_2` (`hermite.rs:5-8`). -/
def hermite2 : List (Decimal × Decimal) := [
  (⟨false, 8862269254527579, 16⟩, ⟨true, 7071067811865475, 16⟩),
  (⟨false, 8862269254527579, 16⟩, ⟨false, 7071067811865475, 16⟩)]

/-- `HERMITE_3` (`hermite.rs:9-13`). -/
def hermite3 : List (Decimal × Decimal) := [
  (⟨false, 2954089751509194, 16⟩, ⟨true, 1224744871391589, 15⟩),
  (⟨false, 11816359006036772, 16⟩, ⟨false, 0, 1⟩),
  (⟨false, 2954089751509194, 16⟩, ⟨false, 1224744871391589, 15⟩)]

/-- `HERMITE_4` (`hermite.rs:14-19`). -/
def hermite4 : List (Decimal × Decimal) := [
  (⟨false, 8131283544724519, 17⟩, ⟨true, 16506801238857847, 16⟩),
  (⟨false, 8049140900055127, 16⟩, ⟨true, 5246476232752904, 16⟩),
  (⟨false, 8049140900055127, 16⟩, ⟨false, 5246476232752904, 16⟩),
  (⟨false, 8131283544724519, 17⟩, ⟨false, 16506801238857847, 16⟩)]

/-- `HERMITE_5` (`hermite.rs:20-26`). -/
def hermite5 : List (Decimal × Decimal) := [
  (⟨false, 19953242059045917, 18⟩, ⟨true, 20201828704560856, 16⟩),
  (⟨false, 3936193231522411, 16⟩, ⟨true, 9585724646138185, 16⟩),
  (⟨false, 9453087204829418, 16⟩, ⟨false, 0, 1⟩),
  (⟨false, 3936193231522411, 16⟩, ⟨false, 9585724646138185, 16⟩),
  (⟨false, 19953242059045917, 18⟩, ⟨false, 20201828704560856, 16⟩)]

/-- `HERMITE_6` (`hermite.rs:27-34`). -/
def hermite6 : List (Decimal × Decimal) := [
  (⟨false, 4530009905508835, 18⟩, ⟨true, 23506049736744923, 16⟩),
  (⟨false, 15706732032285647, 17⟩, ⟨true, 1335849074013697, 15⟩),
  (⟨false, 7246295952243924, 16⟩, ⟨true, 4360774119276165, 16⟩),
  (⟨false, 7246295952243924, 16⟩, ⟨false, 4360774119276165, 16⟩),
  (⟨false, 15706732032285647, 17⟩, ⟨false, 1335849074013697, 15⟩),
  (⟨false, 4530009905508835, 18⟩, ⟨false, 23506049736744923, 16⟩)]

/-- `HERMITE_7` (`hermite.rs:35-43`). -/
def hermite7 : List (Decimal × Decimal) := [
  (⟨false, 9717812450995199, 19⟩, ⟨true, 26519613568352334, 16⟩),
  (⟨false, 5451558281912705, 17⟩, ⟨true, 16735516287674714, 16⟩),
  (⟨false, 4256072526101278, 16⟩, ⟨true, 8162878828589646, 16⟩),
  (⟨false, 8102646175568072, 16⟩, ⟨false, 0, 1⟩),
  (⟨false, 4256072526101278, 16⟩, ⟨false, 8162878828589646, 16⟩),
  (⟨false, 5451558281912705, 17⟩, ⟨false, 16735516287674714, 16⟩),
  (⟨false, 9717812450995199, 19⟩, ⟨false, 26519613568352334, 16⟩)]

/-- `HERMITE_8` (`hermite.rs:44-53`). -/
def hermite8 : List (Decimal × Decimal) := [
  (⟨false, 19960407221136783, 20⟩, ⟨true, 2930637420257244, 15⟩),
  (⟨false, 17077983007413467, 18⟩, ⟨true, 1981656756695843, 15⟩),
  (⟨false, 20780232581489183, 17⟩, ⟨true, 11571937124467802, 16⟩),
  (⟨false, 6611470125582415, 16⟩, ⟨true, 3811869902073221, 16⟩),
  (⟨false, 6611470125582415, 16⟩, ⟨false, 3811869902073221, 16⟩),
  (⟨false, 20780232581489183, 17⟩, ⟨false, 11571937124467802, 16⟩),
  (⟨false, 17077983007413467, 18⟩, ⟨false, 1981656756695843, 15⟩),
  (⟨false, 19960407221136783, 20⟩, ⟨false, 2930637420257244, 15⟩)]

/-- `HERMITE_9` (`hermite.rs:54-64`). -/
def hermite9 : List (Decimal × Decimal) := [
  (⟨false, 39606977263264365, 21⟩, ⟨true, 31909932017815277, 16⟩),
  (⟨false, 4943624275536941, 18⟩, ⟨true, 2266580584531843, 15⟩),
  (⟨false, 8847452739437664, 17⟩, ⟨true, 1468553289216668, 15⟩),
  (⟨false, 43265155900255564, 17⟩, ⟨true, 7235510187528376, 16⟩),
  (⟨false, 720235215606051, 15⟩, ⟨false, 0, 1⟩),
  (⟨false, 43265155900255564, 17⟩, ⟨false, 7235510187528376, 16⟩),
  (⟨false, 8847452739437664, 17⟩, ⟨false, 1468553289216668, 15⟩),
  (⟨false, 4943624275536941, 18⟩, ⟨false, 2266580584531843, 15⟩),
  (⟨false, 39606977263264365, 21⟩, ⟨false, 31909932017815277, 16⟩)]

/-- `HERMITE_10` (`hermite.rs:65-76`). -/
def hermite10 : List (Decimal × Decimal) := [
  (⟨false, 7640432855232641, 21⟩, ⟨true, 34361591188377374, 16⟩),
  (⟨false, 13436457467812324, 19⟩, ⟨true, 25327316742327897, 16⟩),
  (⟨false, 33874394455481106, 18⟩, ⟨true, 17566836492998816, 16⟩),
  (⟨false, 2401386110823147, 16⟩, ⟨true, 10366108297895136, 16⟩),
  (⟨false, 6108626337353258, 16⟩, ⟨true, 3429013272237046, 16⟩),
  (⟨false, 6108626337353258, 16⟩, ⟨false, 3429013272237046, 16⟩),
  (⟨false, 2401386110823147, 16⟩, ⟨false, 10366108297895136, 16⟩),
  (⟨false, 33874394455481106, 18⟩, ⟨false, 17566836492998816, 16⟩),
  (⟨false, 13436457467812324, 19⟩, ⟨false, 25327316742327897, 16⟩),
  (⟨false, 7640432855232641, 21⟩, ⟨false, 34361591188377374, 16⟩)]

/-- `HERMITE_11` (`hermite.rs:77-89`). -/
def hermite11 : List (Decimal × Decimal) := [
  (⟨false, 14395603937142596, 22⟩, ⟨true, 36684708465595826, 16⟩),
  (⟨false, 34681946632334544, 20⟩, ⟨true, 27832900997816514, 16⟩),
  (⟨false, 11911395444911507, 18⟩, ⟨true, 20259480158257555, 16⟩),
  (⟨false, 11722787516770851, 17⟩, ⟨true, 13265570844949328, 16⟩),
  (⟨false, 42935975235612495, 17⟩, ⟨true, 6568095668820998, 16⟩),
  (⟨false, 6547592869145916, 16⟩, ⟨false, 0, 1⟩),
  (⟨false, 42935975235612495, 17⟩, ⟨false, 6568095668820998, 16⟩),
  (⟨false, 11722787516770851, 17⟩, ⟨false, 13265570844949328, 16⟩),
  (⟨false, 11911395444911507, 18⟩, ⟨false, 20259480158257555, 16⟩),
  (⟨false, 34681946632334544, 20⟩, ⟨false, 27832900997816514, 16⟩),
  (⟨false, 14395603937142596, 22⟩, ⟨false, 36684708465595826, 16⟩)]

/-- `HERMITE_12` (`hermite.rs:90-103`). -/
def hermite12 : List (Decimal × Decimal) := [
  (⟨false, 26585516843563044, 23⟩, ⟨true, 3889724897869782, 15⟩),
  (⟨false, 8573687043587868, 20⟩, ⟨true, 30206370251208896, 16⟩),
  (⟨false, 390539058462906, 17⟩, ⟨true, 22795070805010598, 16⟩),
  (⟨false, 5160798561588398, 17⟩, ⟨true, 15976826351526048, 16⟩),
  (⟨false, 2604923102641611, 16⟩, ⟨true, 9477883912401638, 16⟩),
  (⟨false, 5701352362624795, 16⟩, ⟨true, 31424037625435913, 17⟩),
  (⟨false, 5701352362624795, 16⟩, ⟨false, 31424037625435913, 17⟩),
  (⟨false, 2604923102641611, 16⟩, ⟨false, 9477883912401638, 16⟩),
  (⟨false, 5160798561588398, 17⟩, ⟨false, 15976826351526048, 16⟩),
  (⟨false, 390539058462906, 17⟩, ⟨false, 22795070805010598, 16⟩),
  (⟨false, 8573687043587868, 20⟩, ⟨false, 30206370251208896, 16⟩),
  (⟨false, 26585516843563044, 23⟩, ⟨false, 3889724897869782, 15⟩)]

/-- `HERMITE_13` (`hermite.rs:104-118`). -/
def hermite13 : List (Decimal × Decimal) := [
  (⟨false, 4825731850073125, 23⟩, ⟨true, 410133759617864, 14⟩),
  (⟨false, 20430360402707087, 21⟩, ⟨true, 324660897837241, 14⟩),
  (⟨false, 1207459992719386, 18⟩, ⟨true, 25197356856782376, 16⟩),
  (⟨false, 20862775296169953, 18⟩, ⟨true, 1853107651601512, 15⟩),
  (⟨false, 1403233206870235, 16⟩, ⟨true, 12200550365907483, 16⟩),
  (⟨false, 4216162968985432, 16⟩, ⟨true, 6057638791710601, 16⟩),
  (⟨false, 6043931879211613, 16⟩, ⟨false, 0, 1⟩),
  (⟨false, 4216162968985432, 16⟩, ⟨false, 6057638791710601, 16⟩),
  (⟨false, 1403233206870235, 16⟩, ⟨false, 12200550365907483, 16⟩),
  (⟨false, 20862775296169953, 18⟩, ⟨false, 1853107651601512, 15⟩),
  (⟨false, 1207459992719386, 18⟩, ⟨false, 25197356856782376, 16⟩),
  (⟨false, 20430360402707087, 21⟩, ⟨false, 324660897837241, 14⟩),
  (⟨false, 4825731850073125, 23⟩, ⟨false, 410133759617864, 14⟩)]

/-- `HERMITE_14` (`hermite.rs:119-134`). -/
def hermite14 : List (Decimal × Decimal) := [
  (⟨false, 8628591168125132, 24⟩, ⟨true, 4304448570473632, 15⟩),
  (⟨false, 471648435501891, 20⟩, ⟨true, 34626569336022706, 16⟩),
  (⟨false, 35509261355192297, 20⟩, ⟨true, 27484707249854026, 16⟩),
  (⟨false, 7850054726457945, 18⟩, ⟨true, 20951832585077166, 16⟩),
  (⟨false, 6850553422346528, 17⟩, ⟨true, 14766827311411408, 16⟩),
  (⟨false, 2731056090642464, 16⟩, ⟨true, 8787137873293994, 16⟩),
  (⟨false, 5364059097120901, 16⟩, ⟨true, 29174551067256205, 17⟩),
  (⟨false, 5364059097120901, 16⟩, ⟨false, 29174551067256205, 17⟩),
  (⟨false, 2731056090642464, 16⟩, ⟨false, 8787137873293994, 16⟩),
  (⟨false, 6850553422346528, 17⟩, ⟨false, 14766827311411408, 16⟩),
  (⟨false, 7850054726457945, 18⟩, ⟨false, 20951832585077166, 16⟩),
  (⟨false, 35509261355192297, 20⟩, ⟨false, 27484707249854026, 16⟩),
  (⟨false, 471648435501891, 20⟩, ⟨false, 34626569336022706, 16⟩),
  (⟨false, 8628591168125132, 24⟩, ⟨false, 4304448570473632, 15⟩)]

/-- `HERMITE_15` (`hermite.rs:135-151`). -/
def hermite15 : List (Decimal × Decimal) := [
  (⟨false, 1522475804253521, 24⟩, ⟨true, 4499990707309392, 15⟩),
  (⟨false, 10591155477110625, 22⟩, ⟨true, 36699503734044527, 16⟩),
  (⟨false, 10000444123249982, 20⟩, ⟨true, 2967166927905603, 15⟩),
  (⟨false, 2778068842912775, 18⟩, ⟨true, 2325732486173858, 15⟩),
  (⟨false, 307800338725461, 16⟩, ⟨true, 17199925751864888, 16⟩),
  (⟨false, 15848891579593571, 17⟩, ⟨true, 11361155852109206, 16⟩),
  (⟨false, 4120286874988987, 16⟩, ⟨true, 5650695832555758, 16⟩),
  (⟨false, 5641003087264174, 16⟩, ⟨false, 0, 1⟩),
  (⟨false, 4120286874988987, 16⟩, ⟨false, 5650695832555758, 16⟩),
  (⟨false, 15848891579593571, 17⟩, ⟨false, 11361155852109206, 16⟩),
  (⟨false, 307800338725461, 16⟩, ⟨false, 17199925751864888, 16⟩),
  (⟨false, 2778068842912775, 18⟩, ⟨false, 2325732486173858, 15⟩),
  (⟨false, 10000444123249982, 20⟩, ⟨false, 2967166927905603, 15⟩),
  (⟨false, 10591155477110625, 22⟩, ⟨false, 36699503734044527, 16⟩),
  (⟨false, 1522475804253521, 24⟩, ⟨false, 4499990707309392, 15⟩)]

/-- `HERMITE_16` (`hermite.rs:152-169`). -/
def hermite16 : List (Decimal × Decimal) := [
  (⟨false, 26548074740111673, 26⟩, ⟨true, 4688738939305819, 15⟩),
  (⟨false, 23209808448652032, 23⟩, ⟨true, 3869447904860123, 15⟩),
  (⟨false, 27118600925378892, 21⟩, ⟨true, 3176999161979956, 15⟩),
  (⟨false, 9322840086241807, 19⟩, ⟨true, 25462021578474814, 16⟩),
  (⟨false, 12880311535509989, 18⟩, ⟨true, 19517879909162539, 16⟩),
  (⟨false, 8381004139898583, 17⟩, ⟨true, 13802585391988809, 16⟩),
  (⟨false, 2806474585285337, 16⟩, ⟨true, 8229514491446559, 16⟩),
  (⟨false, 5079294790166137, 16⟩, ⟨true, 27348104613815244, 17⟩),
  (⟨false, 5079294790166137, 16⟩, ⟨false, 27348104613815244, 17⟩),
  (⟨false, 2806474585285337, 16⟩, ⟨false, 8229514491446559, 16⟩),
  (⟨false, 8381004139898583, 17⟩, ⟨false, 13802585391988809, 16⟩),
  (⟨false, 12880311535509989, 18⟩, ⟨false, 19517879909162539, 16⟩),
  (⟨false, 9322840086241807, 19⟩, ⟨false, 25462021578474814, 16⟩),
  (⟨false, 27118600925378892, 21⟩, ⟨false, 3176999161979956, 15⟩),
  (⟨false, 23209808448652032, 23⟩, ⟨false, 3869447904860123, 15⟩),
  (⟨false, 26548074740111673, 26⟩, ⟨false, 4688738939305819, 15⟩)]

/-- `HERMITE_17` (`hermite.rs:170-188`). -/
def hermite17 : List (Decimal × Decimal) := [
  (⟨false, 45805789307986096, 27⟩, ⟨true, 4871345193674403, 15⟩),
  (⟨false, 497707898163077, 22⟩, ⟨true, 40619466758754745, 16⟩),
  (⟨false, 7112289140021293, 21⟩, ⟨true, 3378932091141494, 15⟩),
  (⟨false, 2986432866977531, 19⟩, ⟨true, 27577629157038888, 16⟩),
  (⟨false, 5067349957627545, 18⟩, ⟨true, 21735028266666205, 16⟩),
  (⟨false, 4092003414975629, 17⟩, ⟨true, 16129243142212313, 16⟩),
  (⟨false, 17264829767009698, 17⟩, ⟨true, 10676487257434506, 16⟩),
  (⟨false, 40182646947041206, 17⟩, ⟨true, 5316330013426548, 16⟩),
  (⟨false, 5309179376248635, 16⟩, ⟨false, 0, 1⟩),
  (⟨false, 40182646947041206, 17⟩, ⟨false, 5316330013426548, 16⟩),
  (⟨false, 17264829767009698, 17⟩, ⟨false, 10676487257434506, 16⟩),
  (⟨false, 4092003414975629, 17⟩, ⟨false, 16129243142212313, 16⟩),
  (⟨false, 5067349957627545, 18⟩, ⟨false, 21735028266666205, 16⟩),
  (⟨false, 2986432866977531, 19⟩, ⟨false, 27577629157038888, 16⟩),
  (⟨false, 7112289140021293, 21⟩, ⟨false, 3378932091141494, 15⟩),
  (⟨false, 497707898163077, 22⟩, ⟨false, 40619466758754745, 16⟩),
  (⟨false, 45805789307986096, 27⟩, ⟨false, 4871345193674403, 15⟩)]

/-- `HERMITE_18` (`hermite.rs:189-208`). -/
def hermite18 : List (Decimal × Decimal) := [
  (⟨false, 7828199772115908, 27⟩, ⟨true, 5048364008874467, 15⟩),
  (⟨false, 10467205795792089, 24⟩, ⟨true, 4248117873568127, 15⟩),
  (⟨false, 1810654481093432, 21⟩, ⟨true, 3573769068486266, 15⟩),
  (⟨false, 918112686792939, 19⟩, ⟨true, 2961377505531607, 15⟩),
  (⟨false, 1888522630268417, 18⟩, ⟨true, 23862990891666858, 16⟩),
  (⟨false, 18640042387544676, 18⟩, ⟨true, 18355316042616288, 16⟩),
  (⟨false, 9730174764131541, 17⟩, ⟨true, 13009208583896175, 16⟩),
  (⟨false, 2848072856699793, 16⟩, ⟨true, 7766829192674116, 16⟩),
  (⟨false, 48349569472545567, 17⟩, ⟨true, 2582677505190968, 16⟩),
  (⟨false, 48349569472545567, 17⟩, ⟨false, 2582677505190968, 16⟩),
  (⟨false, 2848072856699793, 16⟩, ⟨false, 7766829192674116, 16⟩),
  (⟨false, 9730174764131541, 17⟩, ⟨false, 13009208583896175, 16⟩),
  (⟨false, 18640042387544676, 18⟩, ⟨false, 18355316042616288, 16⟩),
  (⟨false, 1888522630268417, 18⟩, ⟨false, 23862990891666858, 16⟩),
  (⟨false, 918112686792939, 19⟩, ⟨false, 2961377505531607, 15⟩),
  (⟨false, 1810654481093432, 21⟩, ⟨false, 3573769068486266, 15⟩),
  (⟨false, 10467205795792089, 24⟩, ⟨false, 4248117873568127, 15⟩),
  (⟨false, 7828199772115908, 27⟩, ⟨false, 5048364008874467, 15⟩)]

/-- `HERMITE_19` (`hermite.rs:209-229`). -/
def hermite19 : List (Decimal × Decimal) := [
  (⟨false, 13262970944985234, 28⟩, ⟨true, 5220271690537482, 15⟩),
  (⟨false, 2163051009863575, 24⟩, ⟨true, 4428532806603779, 15⟩),
  (⟨false, 4488243147223115, 22⟩, ⟨true, 376218735196402, 14⟩),
  (⟨false, 27209197763161712, 21⟩, ⟨true, 3157848818347602, 15⟩),
  (⟨false, 6708775214071804, 19⟩, ⟨true, 2591133789794543, 15⟩),
  (⟨false, 7988866777723026, 18⟩, ⟨true, 2049231709850619, 15⟩),
  (⟨false, 50810386909052006, 18⟩, ⟨true, 15241706193935332, 16⟩),
  (⟨false, 1836327013069971, 16⟩, ⟨true, 10103683871343114, 16⟩),
  (⟨false, 3916089886130303, 16⟩, ⟨true, 5035201634238882, 16⟩),
  (⟨false, 5029748882761865, 16⟩, ⟨false, 0, 1⟩),
  (⟨false, 3916089886130303, 16⟩, ⟨false, 5035201634238882, 16⟩),
  (⟨false, 1836327013069971, 16⟩, ⟨false, 10103683871343114, 16⟩),
  (⟨false, 50810386909052006, 18⟩, ⟨false, 15241706193935332, 16⟩),
  (⟨false, 7988866777723026, 18⟩, ⟨false, 2049231709850619, 15⟩),
  (⟨false, 6708775214071804, 19⟩, ⟨false, 2591133789794543, 15⟩),
  (⟨false, 27209197763161712, 21⟩, ⟨false, 3157848818347602, 15⟩),
  (⟨false, 4488243147223115, 22⟩, ⟨false, 376218735196402, 14⟩),
  (⟨false, 2163051009863575, 24⟩, ⟨false, 4428532806603779, 15⟩),
  (⟨false, 13262970944985234, 28⟩, ⟨false, 5220271690537482, 15⟩)]

/-- `HERMITE_20` (`hermite.rs:230-251`). -/
def hermite20 : List (Decimal × Decimal) := [
  (⟨false, 22293936455341447, 29⟩, ⟨true, 5387480890011233, 15⟩),
  (⟨false, 43993409922731747, 26⟩, ⟨true, 4603682449550744, 15⟩),
  (⟨false, 10860693707692782, 23⟩, ⟨true, 3944764040115625, 15⟩),
  (⟨false, 780255647853206, 20⟩, ⟨true, 33478545673832163, 16⟩),
  (⟨false, 22833863601635365, 20⟩, ⟨true, 27888060584281305, 16⟩),
  (⟨false, 32437733422378567, 19⟩, ⟨true, 22549740020892757, 16⟩),
  (⟨false, 24810520887463643, 18⟩, ⟨true, 17385377121165861, 16⟩),
  (⟨false, 1090172060200233, 16⟩, ⟨true, 1234076215395323, 15⟩),
  (⟨false, 28667550536283415, 17⟩, ⟨true, 7374737285453944, 16⟩),
  (⟨false, 4622436696006101, 16⟩, ⟨true, 24534070830090124, 17⟩),
  (⟨false, 4622436696006101, 16⟩, ⟨false, 24534070830090124, 17⟩),
  (⟨false, 28667550536283415, 17⟩, ⟨false, 7374737285453944, 16⟩),
  (⟨false, 1090172060200233, 16⟩, ⟨false, 1234076215395323, 15⟩),
  (⟨false, 24810520887463643, 18⟩, ⟨false, 17385377121165861, 16⟩),
  (⟨false, 32437733422378567, 19⟩, ⟨false, 22549740020892757, 16⟩),
  (⟨false, 22833863601635365, 20⟩, ⟨false, 27888060584281305, 16⟩),
  (⟨false, 780255647853206, 20⟩, ⟨false, 33478545673832163, 16⟩),
  (⟨false, 10860693707692782, 23⟩, ⟨false, 3944764040115625, 15⟩),
  (⟨false, 43993409922731747, 26⟩, ⟨false, 4603682449550744, 15⟩),
  (⟨false, 22293936455341447, 29⟩, ⟨false, 5387480890011233, 15⟩)]

/-- `HERMITE_21` (`hermite.rs:252-274`). -/
def hermite21 : List (Decimal × Decimal) := [
  (⟨false, 3720365070136023, 29⟩, ⟨true, 5550351873264678, 15⟩),
  (⟨false, 8818611242049933, 26⟩, ⟨true, 4773992343411219, 15⟩),
  (⟨false, 25712301800593154, 24⟩, ⟨true, 412199554749184, 14⟩),
  (⟨false, 217188489805667, 20⟩, ⟨true, 35319728771376777, 16⟩),
  (⟨false, 7478398867310063, 20⟩, ⟨true, 2979991207704598, 15⟩),
  (⟨false, 12549820417264088, 19⟩, ⟨true, 2453552124512838, 15⟩),
  (⟨false, 11414065837434397, 18⟩, ⟨true, 19449629491862537, 16⟩),
  (⟨false, 601796466589123, 16⟩, ⟨true, 1448934250650732, 15⟩),
  (⟨false, 19212032406699775, 17⟩, ⟨true, 961499634418369, 15⟩),
  (⟨false, 3816690736135022, 16⟩, ⟨true, 47945070707910753, 17⟩),
  (⟨false, 47902370312017756, 17⟩, ⟨false, 0, 1⟩),
  (⟨false, 3816690736135022, 16⟩, ⟨false, 47945070707910753, 17⟩),
  (⟨false, 19212032406699775, 17⟩, ⟨false, 961499634418369, 15⟩),
  (⟨false, 601796466589123, 16⟩, ⟨false, 1448934250650732, 15⟩),
  (⟨false, 11414065837434397, 18⟩, ⟨false, 19449629491862537, 16⟩),
  (⟨false, 12549820417264088, 19⟩, ⟨false, 2453552124512838, 15⟩),
  (⟨false, 7478398867310063, 20⟩, ⟨false, 2979991207704598, 15⟩),
  (⟨false, 217188489805667, 20⟩, ⟨false, 35319728771376777, 16⟩),
  (⟨false, 25712301800593154, 24⟩, ⟨false, 412199554749184, 14⟩),
  (⟨false, 8818611242049933, 26⟩, ⟨false, 4773992343411219, 15⟩),
  (⟨false, 3720365070136023, 29⟩, ⟨false, 5550351873264678, 15⟩)]

/-- `HERMITE_22` (`hermite.rs:275-298`). -/
def hermite22 : List (Decimal × Decimal) := [
  (⟨false, 6167183424404064, 30⟩, ⟨true, 57092013532052635, 16⟩),
  (⟨false, 1744339007547978, 26⟩, ⟨true, 4939834131060176, 15⟩),
  (⟨false, 5966990986059659, 24⟩, ⟨true, 4294312480593161, 15⟩),
  (⟨false, 5884287563301018, 22⟩, ⟨true, 3710701532877805, 15⟩),
  (⟨false, 236551285525104, 19⟩, ⟨true, 31652659092021374, 16⟩),
  (⟨false, 4648850508842517, 19⟩, ⟨true, 2645637441058173, 15⟩),
  (⟨false, 4978399335051638, 18⟩, ⟨true, 21442335927985345, 16⟩),
  (⟨false, 3114037088442385, 17⟩, ⟨true, 16558743732864225, 16⟩),
  (⟨false, 11910236095878239, 17⟩, ⟨true, 11767139584812445, 16⟩),
  (⟨false, 2869714332469073, 16⟩, ⟨true, 703686097170007, 15⟩),
  (⟨false, 44354522643495903, 17⟩, ⟨true, 2341791399309906, 16⟩),
  (⟨false, 44354522643495903, 17⟩, ⟨false, 2341791399309906, 16⟩),
  (⟨false, 2869714332469073, 16⟩, ⟨false, 703686097170007, 15⟩),
  (⟨false, 11910236095878239, 17⟩, ⟨false, 11767139584812445, 16⟩),
  (⟨false, 3114037088442385, 17⟩, ⟨false, 16558743732864225, 16⟩),
  (⟨false, 4978399335051638, 18⟩, ⟨false, 21442335927985345, 16⟩),
  (⟨false, 4648850508842517, 19⟩, ⟨false, 2645637441058173, 15⟩),
  (⟨false, 236551285525104, 19⟩, ⟨false, 31652659092021374, 16⟩),
  (⟨false, 5884287563301018, 22⟩, ⟨false, 3710701532877805, 15⟩),
  (⟨false, 5966990986059659, 24⟩, ⟨false, 4294312480593161, 15⟩),
  (⟨false, 1744339007547978, 26⟩, ⟨false, 4939834131060176, 15⟩),
  (⟨false, 6167183424404064, 30⟩, ⟨false, 57092013532052635, 16⟩)]

/-- `HERMITE_23` (`hermite.rs:299-323`). -/
def hermite23 : List (Decimal × Decimal) := [
  (⟨false, 10160384620636804, 31⟩, ⟨true, 5864309498984572, 15⟩),
  (⟨false, 340831409803052, 26⟩, ⟨true, 5101534610476677, 15⟩),
  (⟨false, 13596296504028966, 25⟩, ⟨true, 4462091173740006, 15⟩),
  (⟨false, 1555339329145767, 22⟩, ⟨true, 3884472708106102, 15⟩),
  (⟨false, 7249295918002263, 21⟩, ⟨true, 33451271599412244, 16⟩),
  (⟨false, 16556169914187427, 20⟩, ⟨true, 2831803787126157, 15⟩),
  (⟨false, 2069567874960639, 18⟩, ⟨true, 2337016211474456, 15⟩),
  (⟨false, 1520708400448414, 17⟩, ⟨true, 1855677037671371, 15⟩),
  (⟨false, 6889028942908743, 17⟩, ⟨true, 13840395856824952, 16⟩),
  (⟨false, 19864489857802245, 17⟩, ⟨true, 9191514654425638, 16⟩),
  (⟨false, 372143824877565, 15⟩, ⟨true, 4585383500681048, 16⟩),
  (⟨false, 4581965855932132, 16⟩, ⟨false, 0, 1⟩),
  (⟨false, 372143824877565, 15⟩, ⟨false, 4585383500681048, 16⟩),
  (⟨false, 19864489857802245, 17⟩, ⟨false, 9191514654425638, 16⟩),
  (⟨false, 6889028942908743, 17⟩, ⟨false, 13840395856824952, 16⟩),
  (⟨false, 1520708400448414, 17⟩, ⟨false, 1855677037671371, 15⟩),
  (⟨false, 2069567874960639, 18⟩, ⟨false, 2337016211474456, 15⟩),
  (⟨false, 16556169914187427, 20⟩, ⟨false, 2831803787126157, 15⟩),
  (⟨false, 7249295918002263, 21⟩, ⟨false, 33451271599412244, 16⟩),
  (⟨false, 1555339329145767, 22⟩, ⟨false, 3884472708106102, 15⟩),
  (⟨false, 13596296504028966, 25⟩, ⟨false, 4462091173740006, 15⟩),
  (⟨false, 340831409803052, 26⟩, ⟨false, 5101534610476677, 15⟩),
  (⟨false, 10160384620636804, 31⟩, ⟨false, 5864309498984572, 15⟩)]

/-- `HERMITE_24` (`hermite.rs:324-349`). -/
def hermite24 : List (Decimal × Decimal) := [
  (⟨false, 16643684964891008, 32⟩, ⟨true, 601592556142574, 14⟩),
  (⟨false, 6584620243078167, 28⟩, ⟨true, 5259382927668044, 15⟩),
  (⟨false, 30462542699875555, 26⟩, ⟨true, 4625662756423788, 15⟩),
  (⟨false, 4018971174941438, 23⟩, ⟨true, 4053664402448149, 15⟩),
  (⟨false, 21582457049023414, 22⟩, ⟨true, 35200068130345246, 16⟩),
  (⟨false, 5688691636404392, 20⟩, ⟨true, 30125461375655647, 16⟩),
  (⟨false, 8236924826884169, 19⟩, ⟨true, 2523881017011427, 15⟩),
  (⟨false, 7048355810072673, 18⟩, ⟨true, 2049003573661699, 15⟩),
  (⟨false, 37445470503230736, 18⟩, ⟨true, 15842500109616942, 16⟩),
  (⟨false, 12773962178455917, 17⟩, ⟨true, 11267608176112451, 16⟩),
  (⟨false, 2861795353464429, 16⟩, ⟨true, 6741711070372123, 16⟩),
  (⟨false, 42693116386869934, 17⟩, ⟨true, 22441454747251557, 17⟩),
  (⟨false, 42693116386869934, 17⟩, ⟨false, 22441454747251557, 17⟩),
  (⟨false, 2861795353464429, 16⟩, ⟨false, 6741711070372123, 16⟩),
  (⟨false, 12773962178455917, 17⟩, ⟨false, 11267608176112451, 16⟩),
  (⟨false, 37445470503230736, 18⟩, ⟨false, 15842500109616942, 16⟩),
  (⟨false, 7048355810072673, 18⟩, ⟨false, 2049003573661699, 15⟩),
  (⟨false, 8236924826884169, 19⟩, ⟨false, 2523881017011427, 15⟩),
  (⟨false, 5688691636404392, 20⟩, ⟨false, 30125461375655647, 16⟩),
  (⟨false, 21582457049023414, 22⟩, ⟨false, 35200068130345246, 16⟩),
  (⟨false, 4018971174941438, 23⟩, ⟨false, 4053664402448149, 15⟩),
  (⟨false, 30462542699875555, 26⟩, ⟨false, 4625662756423788, 15⟩),
  (⟨false, 6584620243078167, 28⟩, ⟨false, 5259382927668044, 15⟩),
  (⟨false, 16643684964891008, 32⟩, ⟨false, 601592556142574, 14⟩)]

/-- `HERMITE_25` (`hermite.rs:350-376`). -/
def hermite25 : List (Decimal × Decimal) := [
  (⟨false, 27119235140383954, 33⟩, ⟨true, 6164272434052452, 15⟩),
  (⟨false, 1258814987746549, 28⟩, ⟨true, 5413636355280033, 15⟩),
  (⟨false, 6719638417706253, 26⟩, ⟨true, 4785320367352224, 15⟩),
  (⟨false, 1017038250301848, 23⟩, ⟨true, 4218609444386561, 15⟩),
  (⟨false, 6257032499691108, 22⟩, ⟨true, 3690282876998356, 15⟩),
  (⟨false, 18915972957340455, 21⟩, ⟨true, 3188294924425105, 15⟩),
  (⟨false, 31508363874548415, 20⟩, ⟨true, 2705320237173026, 15⟩),
  (⟨false, 311570872012563, 17⟩, ⟨true, 2236420130267281, 15⟩),
  (⟨false, 19243098965408895, 18⟩, ⟨true, 17780011243371474, 16⟩),
  (⟨false, 7688899517580887, 17⟩, ⟨true, 1327280702073084, 15⟩),
  (⟨false, 20362113667812404, 17⟩, ⟨true, 8819827562138213, 16⟩),
  (⟨false, 36308898927589045, 17⟩, ⟨true, 4401472986453083, 16⟩),
  (⟨false, 43986872216948497, 17⟩, ⟨false, 0, 1⟩),
  (⟨false, 36308898927589045, 17⟩, ⟨false, 4401472986453083, 16⟩),
  (⟨false, 20362113667812404, 17⟩, ⟨false, 8819827562138213, 16⟩),
  (⟨false, 7688899517580887, 17⟩, ⟨false, 1327280702073084, 15⟩),
  (⟨false, 19243098965408895, 18⟩, ⟨false, 17780011243371474, 16⟩),
  (⟨false, 311570872012563, 17⟩, ⟨false, 2236420130267281, 15⟩),
  (⟨false, 31508363874548415, 20⟩, ⟨false, 2705320237173026, 15⟩),
  (⟨false, 18915972957340455, 21⟩, ⟨false, 3188294924425105, 15⟩),
  (⟨false, 6257032499691108, 22⟩, ⟨false, 3690282876998356, 15⟩),
  (⟨false, 1017038250301848, 23⟩, ⟨false, 4218609444386561, 15⟩),
  (⟨false, 6719638417706253, 26⟩, ⟨false, 4785320367352224, 15⟩),
  (⟨false, 1258814987746549, 28⟩, ⟨false, 5413636355280033, 15⟩),
  (⟨false, 27119235140383954, 33⟩, ⟨false, 6164272434052452, 15⟩)]

/-- `HERMITE_26` (`hermite.rs:377-404`). -/
def hermite26 : List (Decimal × Decimal) := [
  (⟨false, 4396916094753858, 33⟩, ⟨true, 6309550385625694, 15⟩),
  (⟨false, 23831486593721533, 30⟩, ⟨true, 5564524981950103, 15⟩),
  (⟨false, 14609999339815978, 27⟩, ⟨true, 4941324957241379, 15⟩),
  (⟨false, 25244940344905305, 25⟩, ⟨true, 4379602662983305, 15⟩),
  (⟨false, 17701063373973586, 23⟩, ⟨true, 3856288419909149, 15⟩),
  (⟨false, 6103291717395996, 21⟩, ⟨true, 335942718235083, 14⟩),
  (⟨false, 11622970160310945, 20⟩, ⟨true, 2881762219543087, 15⟩),
  (⟨false, 13190647223238565, 19⟩, ⟨true, 2418415764773779, 15⟩),
  (⟨false, 9397901291159578, 18⟩, ⟨true, 19658547856411366, 16⟩),
  (⟨false, 435982272172508, 16⟩, ⟨true, 15213615166519214, 16⟩),
  (⟨false, 13511332791178782, 17⟩, ⟨true, 10827330110778832, 16⟩),
  (⟨false, 2846322411767845, 16⟩, ⟨true, 6480952139934484, 16⟩),
  (⟨false, 41204365059036924, 17⟩, ⟨true, 2157778562434634, 16⟩),
  (⟨false, 41204365059036924, 17⟩, ⟨false, 2157778562434634, 16⟩),
  (⟨false, 2846322411767845, 16⟩, ⟨false, 6480952139934484, 16⟩),
  (⟨false, 13511332791178782, 17⟩, ⟨false, 10827330110778832, 16⟩),
  (⟨false, 435982272172508, 16⟩, ⟨false, 15213615166519214, 16⟩),
  (⟨false, 9397901291159578, 18⟩, ⟨false, 19658547856411366, 16⟩),
  (⟨false, 13190647223238565, 19⟩, ⟨false, 2418415764773779, 15⟩),
  (⟨false, 11622970160310945, 20⟩, ⟨false, 2881762219543087, 15⟩),
  (⟨false, 6103291717395996, 21⟩, ⟨false, 335942718235083, 14⟩),
  (⟨false, 17701063373973586, 23⟩, ⟨false, 3856288419909149, 15⟩),
  (⟨false, 25244940344905305, 25⟩, ⟨false, 4379602662983305, 15⟩),
  (⟨false, 14609999339815978, 27⟩, ⟨false, 4941324957241379, 15⟩),
  (⟨false, 23831486593721533, 30⟩, ⟨false, 5564524981950103, 15⟩),
  (⟨false, 4396916094753858, 33⟩, ⟨false, 6309550385625694, 15⟩)]

/-- `HERMITE_27` (`hermite.rs:405-433`). -/
def hermite27 : List (Decimal × Decimal) := [
  (⟨false, 7095779297051429, 34⟩, ⟨true, 64519401407534716, 16⟩),
  (⟨false, 44707724573931376, 31⟩, ⟨true, 5712255552816536, 15⟩),
  (⟨false, 31341176136230647, 28⟩, ⟨true, 5093910003113184, 15⟩),
  (⟨false, 6155031578231804, 25⟩, ⟨true, 45369066633724415, 16⟩),
  (⟨false, 4895400409699535, 23⟩, ⟨true, 4018318670408739, 15⟩),
  (⟨false, 19152809005952912, 22⟩, ⟨true, 3526275340134353, 15⟩),
  (⟨false, 41467580043841464, 21⟩, ⟨true, 3053582419822255, 15⟩),
  (⟨false, 5367696156881122, 19⟩, ⟨true, 25954163389108182, 16⟩),
  (⟨false, 4381279835792532, 18⟩, ⟨true, 21482966453616275, 16⟩),
  (⟨false, 23415933625341938, 18⟩, ⟨true, 17095607392603371, 16⟩),
  (⟨false, 8417308108405192, 17⟩, ⟨true, 1277066817339858, 15⟩),
  (⟨false, 20737048075100944, 17⟩, ⟨true, 849011342060103, 15⟩),
  (⟨false, 35451730409975385, 17⟩, ⟨true, 42380790054385303, 17⟩),
  (⟨false, 42357728801505956, 17⟩, ⟨false, 0, 1⟩),
  (⟨false, 35451730409975385, 17⟩, ⟨false, 42380790054385303, 17⟩),
  (⟨false, 20737048075100944, 17⟩, ⟨false, 849011342060103, 15⟩),
  (⟨false, 8417308108405192, 17⟩, ⟨false, 1277066817339858, 15⟩),
  (⟨false, 23415933625341938, 18⟩, ⟨false, 17095607392603371, 16⟩),
  (⟨false, 4381279835792532, 18⟩, ⟨false, 21482966453616275, 16⟩),
  (⟨false, 5367696156881122, 19⟩, ⟨false, 25954163389108182, 16⟩),
  (⟨false, 41467580043841464, 21⟩, ⟨false, 3053582419822255, 15⟩),
  (⟨false, 19152809005952912, 22⟩, ⟨false, 3526275340134353, 15⟩),
  (⟨false, 4895400409699535, 23⟩, ⟨false, 4018318670408739, 15⟩),
  (⟨false, 6155031578231804, 25⟩, ⟨false, 45369066633724415, 16⟩),
  (⟨false, 31341176136230647, 28⟩, ⟨false, 5093910003113184, 15⟩),
  (⟨false, 44707724573931376, 31⟩, ⟨false, 5712255552816536, 15⟩),
  (⟨false, 7095779297051429, 34⟩, ⟨false, 64519401407534716, 16⟩)]

/-- `HERMITE_28` (`hermite.rs:434-463`). -/
def hermite28 : List (Decimal × Decimal) := [
  (⟨false, 11401393479036659, 35⟩, ⟨true, 6591605442367743, 15⟩),
  (⟨false, 8315937951206773, 31⟩, ⟨true, 585701464138285, 14⟩),
  (⟨false, 6639436714909621, 28⟩, ⟨true, 5243285373202936, 15⟩),
  (⟨false, 14758531682776932, 26⟩, ⟨true, 4690756523943118, 15⟩),
  (⟨false, 13256825015417047, 24⟩, ⟨true, 41766367421292685, 16⟩),
  (⟨false, 5857719720992982, 22⟩, ⟨true, 36891342384616794, 16⟩),
  (⟨false, 14345504229714393, 21⟩, ⟨true, 32211120765614556, 16⟩),
  (⟨false, 2106181000240319, 19⟩, ⟨true, 2767795352913594, 15⟩),
  (⟨false, 19573312944089908, 19⟩, ⟨true, 23257498426564407, 16⟩),
  (⟨false, 1196842321435482, 17⟩, ⟨true, 18923604968376853, 16⟩),
  (⟨false, 4951488928989816, 17⟩, ⟨true, 1465537263457409, 15⟩),
  (⟨false, 1413946097869548, 16⟩, ⟨true, 10435352737542083, 16⟩),
  (⟨false, 28256139125938884, 17⟩, ⟨true, 6248367195052092, 16⟩),
  (⟨false, 39860471782645124, 17⟩, ⟨true, 20806738269073688, 17⟩),
  (⟨false, 39860471782645124, 17⟩, ⟨false, 20806738269073688, 17⟩),
  (⟨false, 28256139125938884, 17⟩, ⟨false, 6248367195052092, 16⟩),
  (⟨false, 1413946097869548, 16⟩, ⟨false, 10435352737542083, 16⟩),
  (⟨false, 4951488928989816, 17⟩, ⟨false, 1465537263457409, 15⟩),
  (⟨false, 1196842321435482, 17⟩, ⟨false, 18923604968376853, 16⟩),
  (⟨false, 19573312944089908, 19⟩, ⟨false, 23257498426564407, 16⟩),
  (⟨false, 2106181000240319, 19⟩, ⟨false, 2767795352913594, 15⟩),
  (⟨false, 14345504229714393, 21⟩, ⟨false, 32211120765614556, 16⟩),
  (⟨false, 5857719720992982, 22⟩, ⟨false, 36891342384616794, 16⟩),
  (⟨false, 13256825015417047, 24⟩, ⟨false, 41766367421292685, 16⟩),
  (⟨false, 14758531682776932, 26⟩, ⟨false, 4690756523943118, 15⟩),
  (⟨false, 6639436714909621, 28⟩, ⟨false, 5243285373202936, 15⟩),
  (⟨false, 8315937951206773, 31⟩, ⟨false, 585701464138285, 14⟩),
  (⟨false, 11401393479036659, 35⟩, ⟨false, 6591605442367743, 15⟩)]

/-- `HERMITE_29` (`hermite.rs:464-494`). -/
def hermite29 : List (Decimal × Decimal) := [
  (⟨false, 18244608527672462, 36⟩, ⟨true, 672869519860885, 14⟩),
  (⟨false, 153450044460532, 30⟩, ⟨true, 599897128946382, 14⟩),
  (⟨false, 13901072714495982, 29⟩, ⟨true, 5389640521966752, 15⟩),
  (⟨false, 34841301613084254, 27⟩, ⟨true, 4841363651059164, 15⟩),
  (⟨false, 35203123276007064, 25⟩, ⟨true, 433147829381915, 14⟩),
  (⟨false, 1749229129949943, 22⟩, ⟨true, 38482667922136202, 16⟩),
  (⟨false, 4823073497647774, 21⟩, ⟨true, 33846451410922143, 16⟩),
  (⟨false, 7990920354521803, 20⟩, ⟨true, 29358825042901264, 16⟩),
  (⟨false, 840792506140262, 18⟩, ⟨true, 2498585691019404, 15⟩),
  (⟨false, 5845503545271507, 18⟩, ⟨true, 2070181076053428, 15⟩),
  (⟨false, 2763965559202372, 17⟩, ⟨true, 16486229138923163, 16⟩),
  (⟨false, 907688422155782, 16⟩, ⟨true, 1232215755084753, 15⟩),
  (⟨false, 2101426944492106, 16⟩, ⟨true, 8194986812709115, 16⟩),
  (⟨false, 34641893907167015, 17⟩, ⟨true, 4091646363949287, 16⟩),
  (⟨false, 40897117463522964, 17⟩, ⟨false, 0, 1⟩),
  (⟨false, 34641893907167015, 17⟩, ⟨false, 4091646363949287, 16⟩),
  (⟨false, 2101426944492106, 16⟩, ⟨false, 8194986812709115, 16⟩),
  (⟨false, 907688422155782, 16⟩, ⟨false, 1232215755084753, 15⟩),
  (⟨false, 2763965559202372, 17⟩, ⟨false, 16486229138923163, 16⟩),
  (⟨false, 5845503545271507, 18⟩, ⟨false, 2070181076053428, 15⟩),
  (⟨false, 840792506140262, 18⟩, ⟨false, 2498585691019404, 15⟩),
  (⟨false, 7990920354521803, 20⟩, ⟨false, 29358825042901264, 16⟩),
  (⟨false, 4823073497647774, 21⟩, ⟨false, 33846451410922143, 16⟩),
  (⟨false, 1749229129949943, 22⟩, ⟨false, 38482667922136202, 16⟩),
  (⟨false, 35203123276007064, 25⟩, ⟨false, 433147829381915, 14⟩),
  (⟨false, 34841301613084254, 27⟩, ⟨false, 4841363651059164, 15⟩),
  (⟨false, 13901072714495982, 29⟩, ⟨false, 5389640521966752, 15⟩),
  (⟨false, 153450044460532, 30⟩, ⟨false, 599897128946382, 14⟩),
  (⟨false, 18244608527672462, 36⟩, ⟨false, 672869519860885, 14⟩)]

/-- `HERMITE_30` (`hermite.rs:495-526`). -/
def hermite30 : List (Decimal × Decimal) := [
  (⟨false, 29082547001312045, 37⟩, ⟨true, 6863345293529892, 15⟩),
  (⟨false, 2810333602750875, 32⟩, ⟨true, 6138279220123935, 15⟩),
  (⟨false, 28786070805487023, 30⟩, ⟨true, 5533147151567496, 15⟩),
  (⟨false, 8106186297463033, 27⟩, ⟨true, 4988918968589944, 15⟩),
  (⟨false, 9178580424378485, 25⟩, ⟨true, 44830553570925185, 16⟩),
  (⟨false, 5108522450775958, 23⟩, ⟨true, 4003908603861229, 15⟩),
  (⟨false, 1579094887324711, 21⟩, ⟨true, 354444387315535, 14⟩),
  (⟨false, 2938725228922988, 20⟩, ⟨true, 30999705295864417, 16⟩),
  (⟨false, 34831012431868485, 20⟩, ⟨true, 26671321245356174, 16⟩),
  (⟨false, 27379224730676565, 19⟩, ⟨true, 2243391467761504, 15⟩),
  (⟨false, 14703829704826678, 18⟩, ⟨true, 1826741143603688, 15⟩),
  (⟨false, 55144176870234186, 18⟩, ⟨true, 14155278001981886, 16⟩),
  (⟨false, 14673584754089003, 17⟩, ⟨true, 10083382710467235, 16⟩),
  (⟨false, 28013093083921264, 17⟩, ⟨true, 6039210586255523, 16⟩),
  (⟨false, 38639488954181395, 17⟩, ⟨true, 2011285765488715, 16⟩),
  (⟨false, 38639488954181395, 17⟩, ⟨false, 2011285765488715, 16⟩),
  (⟨false, 28013093083921264, 17⟩, ⟨false, 6039210586255523, 16⟩),
  (⟨false, 14673584754089003, 17⟩, ⟨false, 10083382710467235, 16⟩),
  (⟨false, 55144176870234186, 18⟩, ⟨false, 14155278001981886, 16⟩),
  (⟨false, 14703829704826678, 18⟩, ⟨false, 1826741143603688, 15⟩),
  (⟨false, 27379224730676565, 19⟩, ⟨false, 2243391467761504, 15⟩),
  (⟨false, 34831012431868485, 20⟩, ⟨false, 26671321245356174, 16⟩),
  (⟨false, 2938725228922988, 20⟩, ⟨false, 30999705295864417, 16⟩),
  (⟨false, 1579094887324711, 21⟩, ⟨false, 354444387315535, 14⟩),
  (⟨false, 5108522450775958, 23⟩, ⟨false, 4003908603861229, 15⟩),
  (⟨false, 9178580424378485, 25⟩, ⟨false, 44830553570925185, 16⟩),
  (⟨false, 8106186297463033, 27⟩, ⟨false, 4988918968589944, 15⟩),
  (⟨false, 28786070805487023, 30⟩, ⟨false, 5533147151567496, 15⟩),
  (⟨false, 2810333602750875, 32⟩, ⟨false, 6138279220123935, 15⟩),
  (⟨false, 29082547001312045, 37⟩, ⟨false, 6863345293529892, 15⟩)]

/-- `HERMITE` (`hermite.rs:528-560`). -/
def hermite : List (List (Decimal × Decimal)) :=
  [[], hermite1, hermite2, hermite3, hermite4, hermite5, hermite6, hermite7, hermite8, hermite9, hermite10,
    hermite11, hermite12, hermite13, hermite14, hermite15, hermite16, hermite17, hermite18, hermite19, hermite20,
    hermite21, hermite22, hermite23, hermite24, hermite25, hermite26, hermite27, hermite28, hermite29, hermite30]

/-- `LAGUERRE_1` (`laguerre.rs:4-4`). -/
def laguerre1 : List (Decimal × Decimal) := [(⟨false, 10, 1⟩, ⟨false, 10, 1⟩)]

/-- `LAGUERRE_2` (`laguerre.rs:5-8`). -/
def laguerre2 : List (Decimal × Decimal) := [
  (⟨false, 8535533905932737, 16⟩, ⟨false, 585786437626905, 15⟩),
  (⟨false, 14644660940672624, 17⟩, ⟨false, 3414213562373095, 15⟩)]

/-- `LAGUERRE_3` (`laguerre.rs:9-13`). -/
def laguerre3 : List (Decimal × Decimal) := [
  (⟨false, 7110930099291729, 16⟩, ⟨false, 4157745567834791, 16⟩),
  (⟨false, 278517733569241, 15⟩, ⟨false, 2294280360279042, 15⟩),
  (⟨false, 10389256501586133, 18⟩, ⟨false, 62899450829374794, 16⟩)]

/-- `LAGUERRE_4` (`laguerre.rs:14-19`). -/
def laguerre4 : List (Decimal × Decimal) := [
  (⟨false, 6031541043416337, 16⟩, ⟨false, 3225476896193924, 16⟩),
  (⟨false, 35741869243779956, 17⟩, ⟨false, 17457611011583465, 16⟩),
  (⟨false, 38887908515005405, 18⟩, ⟨false, 4536620296921128, 15⟩),
  (⟨false, 5392947055613296, 19⟩, ⟨false, 9395070912301133, 15⟩)]

/-- `LAGUERRE_5` (`laguerre.rs:20-26`). -/
def laguerre5 : List (Decimal × Decimal) := [
  (⟨false, 5217556105828085, 16⟩, ⟨false, 26356031971814087, 17⟩),
  (⟨false, 398666811083176, 15⟩, ⟨false, 14134030591065168, 16⟩),
  (⟨false, 7594244968170769, 17⟩, ⟨false, 3596425771040722, 15⟩),
  (⟨false, 36117586799220545, 19⟩, ⟨false, 7085810005858837, 15⟩),
  (⟨false, 23369972385776248, 21⟩, ⟨false, 12640800844275782, 15⟩)]

/-- `LAGUERRE_6` (`laguerre.rs:27-34`). -/
def laguerre6 : List (Decimal × Decimal) := [
  (⟨false, 45896467394996476, 17⟩, ⟨false, 2228466041792607, 16⟩),
  (⟨false, 41700083077212, 14⟩, ⟨false, 11889321016726226, 16⟩),
  (⟨false, 11337338207404488, 17⟩, ⟨false, 2992736326059314, 15⟩),
  (⟨false, 10399197453149087, 18⟩, ⟨false, 577514356910451, 14⟩),
  (⟨false, 26101720281493265, 20⟩, ⟨false, 983746741838259, 14⟩),
  (⟨false, 8985479064296213, 22⟩, ⟨false, 15982873980601703, 15⟩)]

/-- `LAGUERRE_7` (`laguerre.rs:35-43`). -/
def laguerre7 : List (Decimal × Decimal) := [
  (⟨false, 40931895170127336, 17⟩, ⟨false, 19304367656036225, 17⟩),
  (⟨false, 4218312778617202, 16⟩, ⟨false, 10266648953391924, 16⟩),
  (⟨false, 1471263486575053, 16⟩, ⟨false, 2567876744950746, 15⟩),
  (⟨false, 20633514468716942, 18⟩, ⟨false, 4900353084526484, 15⟩),
  (⟨false, 1074010143280746, 18⟩, ⟨false, 818215344456286, 14⟩),
  (⟨false, 15865464348564196, 21⟩, ⟨false, 12734180291797815, 15⟩),
  (⟨false, 31703154789955624, 24⟩, ⟨false, 1939572786226254, 14⟩)]

/-- `LAGUERRE_8` (`laguerre.rs:44-53`). -/
def laguerre8 : List (Decimal × Decimal) := [
  (⟨false, 36918858934163495, 17⟩, ⟨false, 17027963230510093, 17⟩),
  (⟨false, 4187867808143447, 16⟩, ⟨false, 90370177679938, 14⟩),
  (⟨false, 17579498663717255, 17⟩, ⟨false, 2251086629866131, 15⟩),
  (⟨false, 33343492261215794, 18⟩, ⟨false, 4266700170287659, 15⟩),
  (⟨false, 27945362352256834, 19⟩, ⟨false, 70459054023934655, 16⟩),
  (⟨false, 9076508773358139, 20⟩, ⟨false, 10758516010180996, 15⟩),
  (⟨false, 848574671627257, 21⟩, ⟨false, 15740678641278004, 15⟩),
  (⟨false, 10480011748715153, 25⟩, ⟨false, 22863131736889265, 15⟩)]

/-- `LAGUERRE_9` (`laguerre.rs:54-64`). -/
def laguerre9 : List (Decimal × Decimal) := [
  (⟨false, 33612642179796287, 17⟩, ⟨false, 1523222277318084, 16⟩),
  (⟨false, 4112139804239856, 16⟩, ⟨false, 8072200227422562, 16⟩),
  (⟨false, 1992875253708841, 16⟩, ⟨false, 2005135155619347, 15⟩),
  (⟨false, 4746056276565138, 17⟩, ⟨false, 3783473973331233, 15⟩),
  (⟨false, 5599626610794551, 18⟩, ⟨false, 6204956777876613, 15⟩),
  (⟨false, 30524976709320943, 20⟩, ⟨false, 9372985251687576, 15⟩),
  (⟨false, 6592123026075329, 21⟩, ⟨false, 13466236911092095, 15⟩),
  (⟨false, 41107693303495754, 24⟩, ⟨false, 18833597788991696, 15⟩),
  (⟨false, 3290874030350679, 26⟩, ⟨false, 26374071890927375, 15⟩)]

/-- `LAGUERRE_10` (`laguerre.rs:65-76`). -/
def laguerre10 : List (Decimal × Decimal) := [
  (⟨false, 3084411157650173, 16⟩, ⟨false, 1377934705404926, 16⟩),
  (⟨false, 4011199291552761, 16⟩, ⟨false, 729454549503171, 15⟩),
  (⟨false, 2180682876118096, 16⟩, ⟨false, 18083429017403159, 16⟩),
  (⟨false, 62087456098677773, 18⟩, ⟨false, 34014336978548996, 16⟩),
  (⟨false, 95015169751811, 16⟩, ⟨false, 5552496140063804, 15⟩),
  (⟨false, 7530083885875384, 19⟩, ⟨false, 8330152746764497, 15⟩),
  (⟨false, 28259233495995642, 21⟩, ⟨false, 11843785837900066, 15⟩),
  (⟨false, 4249313984962698, 22⟩, ⟨false, 16279257831378104, 15⟩),
  (⟨false, 1839564823979633, 24⟩, ⟨false, 2199658581198076, 14⟩),
  (⟨false, 991182721960906, 27⟩, ⟨false, 2992069701227389, 14⟩)]

/-- `LAGUERRE_11` (`laguerre.rs:77-89`). -/
def laguerre11 : List (Decimal × Decimal) := [
  (⟨false, 28493321289419904, 17⟩, ⟨false, 12579644218796757, 17⟩),
  (⟨false, 38972088952785106, 17⟩, ⟨false, 6654182558392279, 16⟩),
  (⟨false, 23278183184899082, 17⟩, ⟨false, 16471505458721691, 16⟩),
  (⟨false, 7656445354619705, 17⟩, ⟨false, 3091138143035255, 15⟩),
  (⟨false, 14393282767350744, 18⟩, ⟨false, 5029284401579833, 15⟩),
  (⟨false, 15188808464848761, 19⟩, ⟨false, 7509887863806617, 15⟩),
  (⟨false, 8513122435471927, 20⟩, ⟨false, 10605950999546968, 15⟩),
  (⟨false, 22924038795745057, 22⟩, ⟨false, 14431613758064186, 15⟩),
  (⟨false, 24863537027677806, 24⟩, ⟨false, 1917885740321468, 14⟩),
  (⟨false, 7712626933691416, 26⟩, ⟨false, 25217709339677562, 15⟩),
  (⟨false, 28837758683235913, 30⟩, ⟨false, 3349719284717553, 14⟩)]

/-- `LAGUERRE_12` (`laguerre.rs:90-103`). -/
def laguerre12 : List (Decimal × Decimal) := [
  (⟨false, 26473137105543654, 17⟩, ⟨false, 1157221173580205, 16⟩),
  (⟨false, 3777592758731421, 16⟩, ⟨false, 6117574845151308, 16⟩),
  (⟨false, 24408201131987906, 17⟩, ⟨false, 1512610269776419, 15⟩),
  (⟨false, 9044922221168182, 17⟩, ⟨false, 2833751337743507, 15⟩),
  (⟨false, 20102381154634218, 18⟩, ⟨false, 45992276394183484, 16⟩),
  (⟨false, 26639735418653335, 19⟩, ⟨false, 6844525453115177, 15⟩),
  (⟨false, 2032315926630013, 19⟩, ⟨false, 9621316842456867, 15⟩),
  (⟨false, 8365055856819926, 21⟩, ⟨false, 13006054993306348, 15⟩),
  (⟨false, 16684938765409212, 23⟩, ⟨false, 17116855187462257, 15⟩),
  (⟨false, 1342391030515004, 24⟩, ⟨false, 22151090379397004, 15⟩),
  (⟨false, 30616016350351023, 28⟩, ⟨false, 28487967250984, 12⟩),
  (⟨false, 8148077467426094, 31⟩, ⟨false, 3709912104446692, 14⟩)]

/-- `LAGUERRE_13` (`laguerre.rs:104-118`). -/
def laguerre13 : List (Decimal × Decimal) := [
  (⟨false, 24718870842995047, 17⟩, ⟨false, 10714238847225208, 17⟩),
  (⟨false, 36568882290052845, 17⟩, ⟨false, 5661318990404021, 16⟩),
  (⟨false, 25256242005766244, 17⟩, ⟨false, 13985643364510194, 16⟩),
  (⟨false, 1034707580241851, 16⟩, ⟨false, 2616597108406411, 15⟩),
  (⟨false, 2643275441556194, 17⟩, ⟨false, 42388459290170335, 16⟩),
  (⟨false, 4220396040254825, 18⟩, ⟨false, 6292256271140074, 15⟩),
  (⟨false, 41188177047274074, 20⟩, ⟨false, 8815001941186978, 15⟩),
  (⟨false, 23515473981553592, 21⟩, ⟨false, 11861403588811243, 15⟩),
  (⟨false, 7317311620249228, 22⟩, ⟨false, 15510762037703753, 15⟩),
  (⟨false, 11088416257040026, 24⟩, ⟨false, 1988463566388023, 14⟩),
  (⟨false, 6770826692205984, 26⟩, ⟨false, 25185263864677758, 15⟩),
  (⟨false, 1159979959905093, 28⟩, ⟨false, 31800386301947267, 15⟩),
  (⟨false, 22450932038927516, 33⟩, ⟨false, 4072300866926558, 14⟩)]

/-- `LAGUERRE_14` (`laguerre.rs:119-134`). -/
def laguerre14 : List (Decimal × Decimal) := [
  (⟨false, 23181557714485496, 17⟩, ⟨false, 9974750703259747, 17⟩),
  (⟨false, 3537846915975482, 16⟩, ⟨false, 5268576488519032, 16⟩),
  (⟨false, 25873461024543143, 17⟩, ⟨false, 13006291212514964, 16⟩),
  (⟨false, 11548289355692445, 17⟩, ⟨false, 24308010787308443, 16⟩),
  (⟨false, 3319209215933767, 17⟩, ⟨false, 39321028222932184, 16⟩),
  (⟨false, 6192869437006678, 18⟩, ⟨false, 5825536218301709, 15⟩),
  (⟨false, 7398903778673914, 19⟩, ⟨false, 8140240141565144, 15⟩),
  (⟨false, 5490719466841746, 20⟩, ⟨false, 1091649950736602, 14⟩),
  (⟨false, 2409585764085411, 21⟩, ⟨false, 1421080501116129, 14⟩),
  (⟨false, 5801543981676581, 23⟩, ⟨false, 18104892220218098, 15⟩),
  (⟨false, 6819314692485005, 25⟩, ⟨false, 22723381628269625, 15⟩),
  (⟨false, 3221207751894856, 27⟩, ⟨false, 28272981723248204, 15⟩),
  (⟨false, 4221352440516672, 30⟩, ⟨false, 35149443660592425, 15⟩),
  (⟨false, 6052375022289209, 34⟩, ⟨false, 44366081711117424, 15⟩)]

/-- `LAGUERRE_15` (`laguerre.rs:135-151`). -/
def laguerre15 : List (Decimal × Decimal) := [
  (⟨false, 2182348859400943, 16⟩, ⟨false, 9330781201728192, 17⟩),
  (⟨false, 34221017792287955, 17⟩, ⟨false, 4926917403018839, 16⟩),
  (⟨false, 2630275779416778, 16⟩, ⟨false, 12155954120709496, 16⟩),
  (⟨false, 12642581810592993, 17⟩, ⟨false, 22699495262037437, 16⟩),
  (⟨false, 4020686492100045, 17⟩, ⟨false, 3667622721751437, 15⟩),
  (⟨false, 8563877803611772, 18⟩, ⟨false, 5425336627413554, 15⟩),
  (⟨false, 12124361472142422, 19⟩, ⟨false, 7565916226613068, 15⟩),
  (⟨false, 11167439234425123, 20⟩, ⟨false, 10120228568019114, 15⟩),
  (⟨false, 6459926762022831, 21⟩, ⟨false, 13130282482175724, 15⟩),
  (⟨false, 22263169070962413, 23⟩, ⟨false, 1665440770832996, 14⟩),
  (⟨false, 4227430384979312, 24⟩, ⟨false, 2077647889944877, 14⟩),
  (⟨false, 39218972670410663, 27⟩, ⟨false, 2562389422672878, 14⟩),
  (⟨false, 14565152640730893, 29⟩, ⟨false, 3140751916975394, 14⟩),
  (⟨false, 14830270511133122, 32⟩, ⟨false, 3853068330648601, 14⟩),
  (⟨false, 16005949062110965, 36⟩, ⟨false, 48026085572685794, 15⟩)]

/-- `LAGUERRE_16` (`laguerre.rs:152-169`). -/
def laguerre16 : List (Decimal × Decimal) := [
  (⟨false, 2061517149578049, 16⟩, ⟨false, 8764941047892776, 17⟩),
  (⟨false, 3310578549508783, 16⟩, ⟨false, 4626963289150804, 16⟩),
  (⟨false, 2657957776442144, 16⟩, ⟨false, 11410577748312265, 16⟩),
  (⟨false, 13629693429637874, 17⟩, ⟨false, 21292836450983805, 16⟩),
  (⟨false, 4732892869412563, 17⟩, ⟨false, 34370866338932067, 16⟩),
  (⟨false, 11299900080339598, 18⟩, ⟨false, 5078018614549768, 15⟩),
  (⟨false, 18490709435263271, 19⟩, ⟨false, 7070338535048234, 15⟩),
  (⟨false, 2042719153082809, 19⟩, ⟨false, 9438314336391938, 15⟩),
  (⟨false, 14844586873981502, 21⟩, ⟨false, 1221422336886616, 14⟩),
  (⟨false, 6828319330871331, 22⟩, ⟨false, 15441527368781617, 15⟩),
  (⟨false, 18810248410797222, 24⟩, ⟨false, 19180156856753136, 15⟩),
  (⟨false, 2862350242973897, 25⟩, ⟨false, 23515905693991908, 15⟩),
  (⟨false, 21270790332241214, 28⟩, ⟨false, 2857872974288214, 14⟩),
  (⟨false, 629796700251788, 29⟩, ⟨false, 3458339870228662, 14⟩),
  (⟨false, 5050473700035608, 33⟩, ⟨false, 4194045264768833, 14⟩),
  (⟨false, 4161462370372851, 37⟩, ⟨false, 5170116033954332, 14⟩)]

/-- `LAGUERRE_17` (`laguerre.rs:170-188`). -/
def laguerre17 : List (Decimal × Decimal) := [
  (⟨false, 195332205251757, 15⟩, ⟨false, 8263821470894772, 17⟩),
  (⟨false, 3203753572745514, 16⟩, ⟨false, 43615032355871114, 17⟩),
  (⟨false, 2673297263571719, 16⟩, ⟨false, 1075176577511429, 15⟩),
  (⟨false, 14512985435876014, 17⟩, ⟨false, 20051935316492315, 16⟩),
  (⟨false, 5443694324533884, 17⟩, ⟨false, 32342561240474432, 16⟩),
  (⟨false, 1435729776606191, 17⟩, ⟨false, 47735135137001965, 16⟩),
  (⟨false, 26628247355727844, 19⟩, ⟨false, 6637829205364953, 15⟩),
  (⟨false, 3436797271563036, 19⟩, ⟨false, 88466855111698, 13⟩),
  (⟨false, 3027551783782883, 20⟩, ⟨false, 11425529319373354, 15⟩),
  (⟨false, 1768515053231684, 21⟩, ⟨false, 14407823037481318, 15⟩),
  (⟨false, 6576272886810413, 23⟩, ⟨false, 1783828473070114, 14⟩),
  (⟨false, 14697309321595616, 25⟩, ⟨false, 21778268257722267, 15⟩),
  (⟨false, 1816910362555461, 26⟩, ⟨false, 263153178112488, 13⟩),
  (⟨false, 1095401388928676, 28⟩, ⟨false, 31581771680456733, 15⟩),
  (⟨false, 2617373882223381, 31⟩, ⟨false, 377960938374771, 13⟩),
  (⟨false, 1672935693146147, 34⟩, ⟨false, 45375716533988964, 15⟩),
  (⟨false, 10656263162740864, 39⟩, ⟨false, 55389751789839615, 15⟩)]

/-- `LAGUERRE_18` (`laguerre.rs:189-208`). -/
def laguerre18 : List (Decimal × Decimal) := [
  (⟨false, 1855886031469319, 16⟩, ⟨false, 7816916666970553, 17⟩),
  (⟨false, 3101817663702191, 16⟩, ⟨false, 4124900852591291, 16⟩),
  (⟨false, 26786656714853346, 17⟩, ⟨false, 10165201796235392, 16⟩),
  (⟨false, 15297974746807239, 17⟩, ⟨false, 1894888509969761, 15⟩),
  (⟨false, 6143491786096046, 17⟩, ⟨false, 305435311320266, 14⟩),
  (⟨false, 17687213080772597, 18⟩, ⟨false, 45042055388898925, 16⟩),
  (⟨false, 3660179767759848, 18⟩, ⟨false, 6256725073949111, 15⟩),
  (⟨false, 5406227870077252, 19⟩, ⟨false, 832782515660563, 14⟩),
  (⟨false, 56169650512141573, 21⟩, ⟨false, 1073799004775761, 14⟩),
  (⟨false, 40153078837011224, 22⟩, ⟨false, 1351365620755509, 14⟩),
  (⟨false, 19146698566756363, 23⟩, ⟨false, 16689306281930104, 15⟩),
  (⟨false, 5836095268631481, 24⟩, ⟨false, 20310767626267744, 15⟩),
  (⟨false, 10717112669553731, 26⟩, ⟨false, 244406813592837, 13⟩),
  (⟨false, 1089098713888804, 27⟩, ⟨false, 29168208662579616, 15⟩),
  (⟨false, 53866647483783116, 31⟩, ⟨false, 34627927065660174, 15⟩),
  (⟨false, 10498659780356833, 33⟩, ⟨false, 4104181677280876, 14⟩),
  (⟨false, 5405398451631025, 36⟩, ⟨false, 4883392271608652, 14⟩),
  (⟨false, 26916532692009873, 41⟩, ⟨false, 5909054643590125, 14⟩)]

/-- `LAGUERRE_19` (`laguerre.rs:209-229`). -/
def laguerre19 : List (Decimal × Decimal) := [
  (⟨false, 17676847491590483, 17⟩, ⟨false, 7415878375720486, 17⟩),
  (⟨false, 3004781436072563, 16⟩, ⟨false, 391268613319995, 15⟩),
  (⟨false, 26759954703817723, 17⟩, ⟨false, 9639573439979584, 16⟩),
  (⟨false, 1599133721355825, 16⟩, ⟨false, 1796175582068328, 15⟩),
  (⟨false, 6824937997615013, 17⟩, ⟨false, 2893651381873784, 15⟩),
  (⟨false, 21239307606544574, 18⟩, ⟨false, 4264215539627767, 15⟩),
  (⟨false, 4841627351148447, 18⟩, ⟨false, 5918141561644048, 15⟩),
  (⟨false, 8049127473813773, 19⟩, ⟨false, 7868618915334735, 15⟩),
  (⟨false, 9652472093153588, 20⟩, ⟨false, 10132423716815266, 15⟩),
  (⟨false, 820730525805109, 20⟩, ⟨false, 12730881463842397, 15⟩),
  (⟨false, 4830566724730854, 22⟩, ⟨false, 15691278339835888, 15⟩),
  (⟨false, 19049913611232925, 24⟩, ⟨false, 1904899320982355, 14⟩),
  (⟨false, 4816684630928075, 25⟩, ⟨false, 22850849760829483, 15⟩),
  (⟨false, 7348258839551234, 27⟩, ⟨false, 27160669327411448, 15⟩),
  (⟨false, 6202275387572623, 29⟩, ⟨false, 3206912225186224, 14⟩),
  (⟨false, 25414308430154715, 32⟩, ⟨false, 3771290580121965, 14⟩),
  (⟨false, 40788612968257876, 35⟩, ⟨false, 443173627958315, 13⟩),
  (⟨false, 17077501875939235, 38⟩, ⟨false, 52312902457404384, 15⟩),
  (⟨false, 6715064649908, 39⟩, ⟨false, 6280242315350038, 14⟩)]

/-- `LAGUERRE_20` (`laguerre.rs:230-251`). -/
def laguerre20 : List (Decimal × Decimal) := [
  (⟨false, 1687468018511337, 16⟩, ⟨false, 7053988969198874, 17⟩),
  (⟨false, 2912543620060606, 16⟩, ⟨false, 37212681800161157, 17⟩),
  (⟨false, 2666861028669966, 16⟩, ⟨false, 9165821024832738, 16⟩),
  (⟨false, 16600245326950186, 17⟩, ⟨false, 17073065310283435, 16⟩),
  (⟨false, 7482606466879074, 17⟩, ⟨false, 2749199255309432, 15⟩),
  (⟨false, 2496441730928259, 17⟩, ⟨false, 4048925313850888, 15⟩),
  (⟨false, 62025508445721095, 19⟩, ⟨false, 5615174970861617, 15⟩),
  (⟨false, 11449623864768774, 19⟩, ⟨false, 7459017453671063, 15⟩),
  (⟨false, 15574177302780828, 20⟩, ⟨false, 9594392869581098, 15⟩),
  (⟨false, 15401440865224536, 21⟩, ⟨false, 12038802546964316, 15⟩),
  (⟨false, 1086486366517955, 21⟩, ⟨false, 1481429344263074, 14⟩),
  (⟨false, 533012090955661, 22⟩, ⟨false, 17948895520519375, 15⟩),
  (⟨false, 17579811790505475, 25⟩, ⟨false, 2147878824028501, 14⟩),
  (⟨false, 3725502402512163, 26⟩, ⟨false, 25451702793186904, 15⟩),
  (⟨false, 476752925157805, 27⟩, ⟨false, 2993255463170061, 14⟩),
  (⟨false, 33728442433624615, 31⟩, ⟨false, 35013434240479, 12⟩),
  (⟨false, 11550143395003684, 33⟩, ⟨false, 4083305705672857, 14⟩),
  (⟨false, 15395221405823035, 36⟩, ⟨false, 476199940473465, 13⟩),
  (⟨false, 5286442725568928, 39⟩, ⟨false, 55810795750063896, 15⟩),
  (⟨false, 16564566124990854, 44⟩, ⟨false, 6652441652561575, 14⟩)]

/-- `LAGUERRE_21` (`laguerre.rs:252-274`). -/
def laguerre21 : List (Decimal × Decimal) := [
  (⟨false, 16142010018163386, 17⟩, ⟨false, 6725781792316145, 17⟩),
  (⟨false, 28249356458300917, 17⟩, ⟨false, 35477289532351297, 17⟩),
  (⟨false, 2652545755138955, 16⟩, ⟨false, 8736601667786427, 16⟩),
  (⟨false, 17131939639001792, 17⟩, ⟨false, 162686994192921, 14⟩),
  (⟨false, 81126625892352, 15⟩, ⟨false, 26186264105455432, 16⟩),
  (⟨false, 28816301767768913, 18⟩, ⟨false, 385465213810976, 14⟩),
  (⟨false, 77342394261186035, 19⟩, ⟨false, 5342369280622434, 15⟩),
  (⟨false, 1567481390421157, 18⟩, ⟨false, 7091168813219674, 15⟩),
  (⟨false, 23842265876341067, 20⟩, ⟨false, 9112778854269706, 15⟩),
  (⟨false, 26930073439685737, 21⟩, ⟨false, 11421771762378382, 15⟩),
  (⟨false, 22247907936450205, 22⟩, ⟨false, 14036270697873759, 15⟩),
  (⟨false, 13173344974322964, 23⟩, ⟨false, 1697895269278384, 14⟩),
  (⟨false, 5443952290646455, 24⟩, ⟨false, 20278509414993742, 15⟩),
  (⟨false, 15163662051980326, 26⟩, ⟨false, 23971845587151478, 15⟩),
  (⟨false, 27178831180588325, 28⟩, ⟨false, 28107528600944306, 15⟩),
  (⟨false, 2942519354071946, 29⟩, ⟨false, 3275149741056083, 14⟩),
  (⟨false, 17590740357976582, 32⟩, ⟨false, 3799718781926095, 14⟩),
  (⟨false, 5073802227171899, 34⟩, ⟨false, 43985245757142216, 15⟩),
  (⟨false, 5659720870324164, 37⟩, ⟨false, 5094735118993992, 14⟩),
  (⟨false, 16062609247991833, 41⟩, ⟨false, 5932599412022999, 14⟩),
  (⟨false, 40441339271160045, 46⟩, ⟨false, 7025568862801893, 14⟩)]

/-- `LAGUERRE_22` (`laguerre.rs:275-298`). -/
def laguerre22 : List (Decimal × Decimal) := [
  (⟨false, 15470198763988863, 17⟩, ⟨false, 6426762874480897, 17⟩),
  (⟨false, 2741750823285574, 16⟩, ⟨false, 3389672548149106, 16⟩),
  (⟨false, 26340970153563764, 17⟩, ⟨false, 8345899854491785, 16⟩),
  (⟨false, 17593460926307705, 17⟩, ⟨false, 15537133867500255, 16⟩),
  (⟨false, 8712562217221223, 17⟩, ⟨false, 2500006236736173, 15⟩),
  (⟨false, 3275268789653955, 17⟩, ⟨false, 3678420344463637, 15⟩),
  (⟨false, 9424900256998475, 18⟩, ⟨false, 5095349068968738, 15⟩),
  (⟨false, 20773357526546648, 19⟩, ⟨false, 675883551581355, 14⟩),
  (⟨false, 34916737149231, 17⟩, ⟨false, 8678853313678427, 15⟩),
  (⟨false, 4438219314066251, 20⟩, ⟨false, 1086768689354057, 14⟩),
  (⟨false, 4214229901104724, 21⟩, ⟨false, 1334045105149524, 14⟩),
  (⟨false, 29406682461302104, 23⟩, ⟨false, 1611581133876631, 14⟩),
  (⟨false, 14761938263897911, 24⟩, ⟨false, 19217003684901353, 15⟩),
  (⟨false, 5186423025724995, 25⟩, ⟨false, 2267331660143459, 14⟩),
  (⟨false, 12305262515544499, 27⟩, ⟨false, 2652231958763714, 14⟩),
  (⟨false, 18804655096314958, 29⟩, ⟨false, 3081335794450656, 14⟩),
  (⟨false, 17355641391268615, 31⟩, ⟨false, 3561333520319617, 14⟩),
  (⟨false, 8831402308327573, 33⟩, ⟨false, 41016968598471685, 15⟩),
  (⟨false, 21607186468182118, 36⟩, ⟨false, 4716675784915352, 14⟩),
  (⟨false, 20311199675834204, 39⟩, ⟨false, 54297385256578885, 15⟩),
  (⟨false, 479790352099101, 41⟩, ⟨false, 6285709624629903, 14⟩),
  (⟨false, 9780246506683717, 47⟩, ⟨false, 739955070085995, 13⟩)]

/-- `LAGUERRE_23` (`laguerre.rs:299-323`). -/
def laguerre23 : List (Decimal × Decimal) := [
  (⟨false, 1485197990820251, 16⟩, ⟨false, 6153203775752009, 17⟩),
  (⟨false, 266276342222034, 15⟩, ⟨false, 3245113291545522, 16⟩),
  (⟨false, 26123706746535463, 17⟩, ⟨false, 7988739686929834, 16⟩),
  (⟨false, 1799149140382924, 16⟩, ⟨false, 14868863342221967, 16⟩),
  (⟨false, 9280788216399254, 17⟩, ⟨false, 2391755829792768, 15⟩),
  (⟨false, 36735792594760786, 18⟩, ⟨false, 35177974425035337, 16⟩),
  (⟨false, 11260589222543752, 18⟩, ⟨false, 4870560368733452, 15⟩),
  (⟨false, 2677540143127065, 18⟩, ⟨false, 64569913067677405, 16⟩),
  (⟨false, 4923896728665716, 19⟩, ⟨false, 8285651892598002, 15⟩),
  (⟨false, 6956649894244136, 20⟩, ⟨false, 10367009043445767, 15⟩),
  (⟨false, 7476361523134302, 21⟩, ⟨false, 12713825028162594, 15⟩),
  (⟨false, 6030632412463128, 22⟩, ⟨false, 15341687572888508, 15⟩),
  (⟨false, 3588339690021635, 23⟩, ⟨false, 1826974239389599, 14⟩),
  (⟨false, 15405512400611729, 25⟩, ⟨false, 21521727850814163, 15⟩),
  (⟨false, 4639077530349208, 26⟩, ⟨false, 25127477130115498, 15⟩),
  (⟨false, 9446912374131525, 28⟩, ⟨false, 29125175108751016, 15⟩),
  (⟨false, 12397411693143862, 30⟩, ⟨false, 3356489656311642, 14⟩),
  (⟨false, 982116826801175, 31⟩, ⟨false, 3851445967718072, 14⟩),
  (⟨false, 4281846844983853, 34⟩, ⟨false, 4406980781487121, 14⟩),
  (⟨false, 8943238836296921, 37⟩, ⟨false, 5037522660304375, 14⟩),
  (⟨false, 7129396795318294, 40⟩, ⟨false, 5766830435043413, 14⟩),
  (⟨false, 14107671088951859, 44⟩, ⟨false, 6640287306834517, 14⟩),
  (⟨false, 23446147663116474, 49⟩, ⟨false, 7774322728471232, 14⟩)]

/-- `LAGUERRE_24` (`laguerre.rs:324-349`). -/
def laguerre24 : List (Decimal × Decimal) := [
  (⟨false, 14281197333475043, 17⟩, ⟨false, 5901985218150761, 17⟩),
  (⟨false, 25877410751744107, 17⟩, ⟨false, 3112391461984835, 16⟩),
  (⟨false, 2588067072728734, 16⟩, ⟨false, 7660969055459361, 16⟩),
  (⟨false, 18332268897778237, 17⟩, ⟨false, 14255975908036125, 16⟩),
  (⟨false, 9816627262992299, 17⟩, ⟨false, 22925620586321904, 16⟩),
  (⟨false, 4073247815141022, 17⟩, ⟨false, 33707742642089986, 16⟩),
  (⟨false, 13226019405120549, 18⟩, ⟨false, 466508370346717, 14⟩),
  (⟨false, 33693490584784146, 19⟩, ⟨false, 6181535118736765, 15⟩),
  (⟨false, 6721625640935707, 19⟩, ⟨false, 7927539247172152, 15⟩),
  (⟨false, 10446121465927847, 20⟩, ⟨false, 9912098015077705, 15⟩),
  (⟨false, 12544721977993773, 21⟩, ⟨false, 12146102711729764, 15⟩),
  (⟨false, 1151315812737323, 21⟩, ⟨false, 14642732289596674, 15⟩),
  (⟨false, 7960812959133895, 23⟩, ⟨false, 17417992646508978, 15⟩),
  (⟨false, 4072858987550192, 24⟩, ⟨false, 20491460082616424, 15⟩),
  (⟨false, 1507008226292658, 25⟩, ⟨false, 23887329848169735, 15⟩),
  (⟨false, 3917736515058548, 27⟩, ⟨false, 27635937174332717, 15⟩),
  (⟨false, 6894181052958382, 29⟩, ⟨false, 31776041352374722, 15⟩),
  (⟨false, 7819800382459628, 31⟩, ⟨false, 3635840580165162, 14⟩),
  (⟨false, 5350188813010104, 33⟩, ⟨false, 4145172048487077, 14⟩),
  (⟨false, 20105174645555705, 36⟩, ⟨false, 47153106445156325, 15⟩),
  (⟨false, 36057658645529064, 39⟩, ⟨false, 5360857454469507, 14⟩),
  (⟨false, 2451818845878714, 41⟩, ⟨false, 6105853144721876, 14⟩),
  (⟨false, 408830159368094, 44⟩, ⟨false, 6996224003510503, 14⟩),
  (⟨false, 5575345788327942, 50⟩, ⟨false, 8149827923394889, 14⟩)]

/-- `LAGUERRE_25` (`laguerre.rs:350-376`). -/
def laguerre25 : List (Decimal × Decimal) := [
  (⟨false, 1375260142293143, 16⟩, ⟨false, 5670477545270528, 17⟩),
  (⟨false, 2516452737649291, 16⟩, ⟨false, 29901089858698887, 17⟩),
  (⟨false, 2561760028097598, 16⟩, ⟨false, 7359095554350165, 16⟩),
  (⟨false, 18621549036244095, 17⟩, ⟨false, 1369183116035193, 15⟩),
  (⟨false, 10319984810752189, 17⟩, ⟨false, 22013260537214667, 16⟩),
  (⟨false, 4471416112993464, 17⟩, ⟨false, 3235675803558037, 15⟩),
  (⟨false, 15305232886395759, 18⟩, ⟨false, 4476496615073835, 15⟩),
  (⟨false, 4152414632877166, 18⟩, ⟨false, 5929083762700448, 15⟩),
  (⟨false, 8920990732597034, 19⟩, ⟨false, 7599899309956751, 15⟩),
  (⟨false, 15115601916424346, 20⟩, ⟨false, 9496749220932434, 15⟩),
  (⟨false, 2006553180193332, 20⟩, ⟨false, 11629014911778754, 15⟩),
  (⟨false, 2067774396431917, 21⟩, ⟨false, 14007957976545068, 15⟩),
  (⟨false, 16346520222911752, 23⟩, ⟨false, 16647125597288785, 15⟩),
  (⟨false, 976601506212471, 23⟩, ⟨false, 19562898011469056, 15⟩),
  (⟨false, 4327720794185004, 25⟩, ⟨false, 2277524198683504, 14⟩),
  (⟨false, 13896009633895479, 27⟩, ⟨false, 26308772390968887, 15⟩),
  (⟨false, 3138922792540003, 28⟩, ⟨false, 30194291163316105, 15⟩),
  (⟨false, 48026148226042224, 31⟩, ⟨false, 3447109757192204, 14⟩),
  (⟨false, 47358853648073665, 33⟩, ⟨false, 3919060880393742, 14⟩),
  (⟨false, 28142053798430746, 35⟩, ⟨false, 4442234933616202, 14⟩),
  (⟨false, 9164954395991565, 37⟩, ⟨false, 5026457499383354, 14⟩),
  (⟨false, 14189400094972862, 40⟩, ⟨false, 5686496717394018, 14⟩),
  (⟨false, 8273651944099231, 43⟩, ⟨false, 6446667061595413, 14⟩),
  (⟨false, 11688817115426908, 47⟩, ⟨false, 7353423479210015, 14⟩),
  (⟨false, 13158315000592032, 52⟩, ⟨false, 8526015556249595, 14⟩)]

/-- `LAGUERRE_26` (`laguerre.rs:377-404`). -/
def laguerre26 : List (Decimal × Decimal) := [
  (⟨false, 13261688414755088, 17⟩, ⟨false, 54564482717908286, 18⟩),
  (⟨false, 24486736801629908, 17⟩, ⟨false, 2877079791061228, 16⟩),
  (⟨false, 2533920221271477, 16⟩, ⟨false, 7080160194786457, 16⟩),
  (⟨false, 18864598364177176, 17⟩, ⟨false, 13170813660438436, 16⟩),
  (⟨false, 10791234164259454, 17⟩, ⟨false, 211712094462847, 14⟩),
  (⟨false, 48656565448924466, 18⟩, ⟨false, 31110938788779334, 16⟩),
  (⟨false, 17482137978490426, 18⟩, ⟨false, 4302770876040371, 15⟩),
  (⟨false, 5024983836831609, 18⟩, ⟨false, 56968188261694666, 16⟩),
  (⟨false, 11552691607496755, 19⟩, ⟨false, 7298909963070183, 15⟩),
  (⟨false, 21179115830037283, 20⟩, ⟨false, 9115862897294216, 15⟩),
  (⟨false, 3079252604171675, 20⟩, ⟨false, 1115582495493751, 14⟩),
  (⟨false, 352344009102456, 20⟩, ⟨false, 13428509032459203, 15⟩),
  (⟨false, 31415563253594235, 23⟩, ⟨false, 15945503948143319, 15⟩),
  (⟨false, 21554568144038427, 24⟩, ⟨false, 18720686145460284, 15⟩),
  (⟨false, 11204781176705473, 25⟩, ⟨false, 21770774608541437, 15⟩),
  (⟨false, 43290024051371465, 27⟩, ⟨false, 2511609366231674, 14⟩),
  (⟨false, 1213689159837291, 27⟩, ⟨false, 28781646873450168, 15⟩),
  (⟨false, 2396074223261364, 29⟩, ⟨false, 32798673218409974, 15⟩),
  (⟨false, 320521855983187, 30⟩, ⟨false, 37206982629612824, 15⟩),
  (⟨false, 27624941506080987, 34⟩, ⟨false, 42058615924434534, 15⟩),
  (⟨false, 14330643640727903, 36⟩, ⟨false, 4742389935628153, 14⟩),
  (⟨false, 4064844694113296, 38⟩, ⟨false, 5340218519725329, 14⟩),
  (⟨false, 5459513322799029, 41⟩, ⟨false, 60142775690076896, 15⟩),
  (⟨false, 27432209871356166, 45⟩, ⟨false, 6789147970545129, 14⟩),
  (⟨false, 3300230478152264, 48⟩, ⟨false, 7711799906933285, 14⟩),
  (⟨false, 3083752269585745, 53⟩, ⟨false, 8902840275041098, 14⟩)]

/-- `LAGUERRE_27` (`laguerre.rs:405-433`). -/
def laguerre27 : List (Decimal × Decimal) := [
  (⟨false, 12804572690683458, 17⟩, ⟨false, 5257989820636434, 17⟩),
  (⟨false, 23841884939415778, 17⟩, ⟨false, 27722910598770467, 17⟩),
  (⟨false, 25049340652299135, 17⟩, ⟨false, 6821639113780065, 16⟩),
  (⟨false, 19066206759352508, 17⟩, ⟨false, 1268814180750757, 15⟩),
  (⟨false, 11231094931185093, 17⟩, ⟨false, 20391592782504855, 16⟩),
  (⟨false, 52539385475131054, 18⟩, ⟨false, 29958355818751636, 16⟩),
  (⟨false, 1974092327574439, 17⟩, ⟨false, 4142194482563246, 15⟩),
  (⟨false, 5984113555700946, 18⟩, ⟨false, 5482371716049069, 15⟩),
  (⟨false, 14641503609227752, 19⟩, ⟨false, 7021376024605551, 15⟩),
  (⟨false, 28849800396584056, 20⟩, ⟨false, 876520271685071, 14⟩),
  (⟨false, 45576544403735015, 21⟩, ⟨false, 10720979045996849, 15⟩),
  (⟨false, 5735756119190818, 21⟩, ⟨false, 12897150901909761, 15⟩),
  (⟨false, 5702097017139314, 22⟩, ⟨false, 15303724197068926, 15⟩),
  (⟨false, 4430769157632029, 23⟩, ⟨false, 1795258016401066, 14⟩),
  (⟨false, 2656165316493792, 24⟩, ⟨false, 20857892743471172, 15⟩),
  (⟨false, 1208947524768711, 25⟩, ⟨false, 24036690385983114, 15⟩),
  (⟨false, 40962644275901, 25⟩, ⟨false, 27509627633675777, 15⟩),
  (⟨false, 10083497673164991, 29⟩, ⟨false, 31302070792021055, 15⟩),
  (⟨false, 17490517511153509, 31⟩, ⟨false, 35445670666132855, 15⟩),
  (⟨false, 20559670832614, 30⟩, ⟨false, 399807226211267, 13⟩),
  (⟨false, 15562957367237563, 35⟩, ⟨false, 44959864785337984, 15⟩),
  (⟨false, 7081265177901208, 37⟩, ⟨false, 5045419615272772, 14⟩),
  (⟨false, 17574720104285717, 40⟩, ⟨false, 5656413090151835, 14⟩),
  (⟨false, 20570430367976135, 43⟩, ⟨false, 6344054668468883, 14⟩),
  (⟨false, 894741911536934, 45⟩, ⟨false, 713318480551601, 13⟩),
  (⟨false, 9209310916917967, 50⟩, ⟨false, 8071276384709606, 14⟩),
  (⟨false, 7179742378294876, 55⟩, ⟨false, 9280261352555704, 14⟩)]

/-- `LAGUERRE_28` (`laguerre.rs:434-463`). -/
def laguerre28 : List (Decimal × Decimal) := [
  (⟨false, 12377884395428292, 17⟩, ⟨false, 5073462484987386, 17⟩),
  (⟨false, 23227927690088956, 17⟩, ⟨false, 26748726864074074, 17⟩),
  (⟨false, 2475118960364775, 16⟩, ⟨false, 6581366283547919, 16⟩),
  (⟨false, 19230711313239388, 17⟩, ⟨false, 1223971808384909, 15⟩),
  (⟨false, 11640536172113154, 17⟩, ⟨false, 19667676124737774, 16⟩),
  (⟨false, 5634590536447879, 17⟩, ⟨false, 28888833260303217, 16⟩),
  (⟨false, 2206636432625927, 17⟩, ⟨false, 39933116592501134, 16⟩),
  (⟨false, 702588763558407, 17⟩, ⟨false, 5283736062843442, 15⟩),
  (⟨false, 18206078926958945, 19⟩, ⟨false, 6764603404243505, 15⟩),
  (⟨false, 3833443038571334, 19⟩, ⟨false, 8441216328271324, 15⟩),
  (⟨false, 6535087080694586, 20⟩, ⟨false, 1031985046299326, 14⟩),
  (⟨false, 8971362053411014, 21⟩, ⟨false, 12407903414460671, 15⟩),
  (⟨false, 9847012256249517, 22⟩, ⟨false, 1471408516413575, 14⟩),
  (⟨false, 8564075852673259, 23⟩, ⟨false, 17248663415608057, 15⟩),
  (⟨false, 5836838763138484, 24⟩, ⟨false, 20023783329951712, 15⟩),
  (⟨false, 30756388778423815, 26⟩, ⟨false, 23053890135030297, 15⟩),
  (⟨false, 12325909527244575, 27⟩, ⟨false, 2635629737440132, 14⟩),
  (⟨false, 3682173674108522, 28⟩, ⟨false, 2995196683359618, 14⟩),
  (⟨false, 7998790575969163, 30⟩, ⟨false, 3386660551658446, 14⟩),
  (⟨false, 1224922500324125, 31⟩, ⟨false, 3813225441019465, 14⟩),
  (⟨false, 12711242950307056, 34⟩, ⟨false, 4278967237077258, 14⟩),
  (⟨false, 8488593367686924, 36⟩, ⟨false, 4789207163362274, 14⟩),
  (⟨false, 34024553794256913, 39⟩, ⟨false, 535112979596643, 13⟩),
  (⟨false, 7420156588867842, 41⟩, ⟨false, 5974879608464124, 14⟩),
  (⟨false, 7600413205801684, 44⟩, ⟨false, 6675697728390647, 14⟩),
  (⟨false, 28739103179403316, 48⟩, ⟨false, 7478677815233917, 14⟩),
  (⟨false, 25418229038893288, 52⟩, ⟨false, 8431783710722705, 14⟩),
  (⟨false, 16613758780291924, 57⟩, ⟨false, 9658242062752731, 14⟩)]

/-- `LAGUERRE_29` (`laguerre.rs:464-494`). -/
def laguerre29 : List (Decimal × Decimal) := [
  (⟨false, 11978686722480197, 17⟩, ⟨false, 49014489994713764, 18⟩),
  (⟨false, 22642938894472694, 17⟩, ⟨false, 2584072979187784, 16⟩),
  (⟨false, 2444735653556698, 16⟩, ⟨false, 6357472158006806, 16⟩),
  (⟨false, 1936202644976424, 16⟩, ⟨false, 11822010556248432, 16⟩),
  (⟨false, 12020699960179668, 17⟩, ⟨false, 18993664980026832, 16⟩),
  (⟨false, 6006260605182236, 17⟩, ⟨false, 2789363538356292, 15⟩),
  (⟨false, 24444040022708252, 18⟩, ⟨false, 38548761581952915, 16⟩),
  (⟨false, 8145624870286014, 18⟩, ⟨false, 5099200088698599, 15⟩),
  (⟨false, 2225899096067021, 18⟩, ⟨false, 6526302885192904, 15⟩),
  (⟨false, 4982863213445163, 19⟩, ⟨false, 8140899733223032, 15⟩),
  (⟨false, 9111348999272648, 20⟩, ⟨false, 9948548893634884, 15⟩),
  (⟨false, 13547034631790815, 21⟩, ⟨false, 11955771944042638, 15⟩),
  (⟨false, 16278500050223739, 22⟩, ⟨false, 14170205843320575, 15⟩),
  (⟨false, 15687206990177564, 23⟩, ⟨false, 16600796552315668, 15⟩),
  (⟨false, 12009533101199034, 24⟩, ⟨false, 19258047913130728, 15⟩),
  (⟨false, 7220528067633325, 25⟩, ⟨false, 2215434543487159, 14⟩),
  (⟨false, 3362401315847858, 26⟩, ⟨false, 25304383763050154, 15⟩),
  (⟨false, 11925479056622084, 28⟩, ⟨false, 28725741025266423, 15⟩),
  (⟨false, 3156204723862708, 29⟩, ⟨false, 32439666742324384, 15⟩),
  (⟨false, 6078331294228565, 31⟩, ⟨false, 3647218971363948, 14⟩),
  (⟨false, 8254298347471583, 33⟩, ⟨false, 40855722336729144, 15⟩),
  (⟨false, 7594039930710283, 35⟩, ⟨false, 4563146770127781, 14⟩),
  (⟨false, 4492421504930552, 37⟩, ⟨false, 5085319151599018, 14⟩),
  (⟨false, 15926368145878875, 40⟩, ⟨false, 5659346289666191, 14⟩),
  (⟨false, 3064007640463193, 42⟩, ⟨false, 6295472850114927, 14⟩),
  (⟨false, 275726695359824, 44⟩, ⟨false, 7009089459642418, 14⟩),
  (⟨false, 9099251850437394, 49⟩, ⟨false, 7825537041941044, 14⟩),
  (⟨false, 6943730710008354, 53⟩, ⟨false, 8793259364298613, 14⟩),
  (⟨false, 38222471284652376, 59⟩, ⟨false, 10036749160276659, 14⟩)]

/-- `LAGUERRE_30` (`laguerre.rs:495-526`). -/
def laguerre30 : List (Decimal × Decimal) := [
  (⟨false, 11604408602043889, 17⟩, ⟨false, 4740718054080526, 17⟩),
  (⟨false, 22085112475067714, 17⟩, ⟨false, 2499239167531594, 16⟩),
  (⟨false, 24139982758785372, 17⟩, ⟨false, 6148334543927684, 16⟩),
  (⟨false, 19463676844641709, 17⟩, ⟨false, 11431958256661015, 16⟩),
  (⟨false, 12372841596687649, 17⟩, ⟨false, 18364545546225723, 16⟩),
  (⟨false, 6367878036898661, 17⟩, ⟨false, 2696521874557216, 15⟩),
  (⟨false, 26860475273379727, 18⟩, ⟨false, 37258145077795093, 16⟩),
  (⟨false, 9338070881603926, 18⟩, ⟨false, 4927293765849882, 15⟩),
  (⟨false, 26806968913368197, 19⟩, ⟨false, 6304515590965074, 15⟩),
  (⟨false, 6351291219408556, 19⟩, ⟨false, 786169329337026, 14⟩),
  (⟨false, 123907459906883, 18⟩, ⟨false, 9603775985479263, 15⟩),
  (⟨false, 1982878843895233, 20⟩, ⟨false, 1153654659795614, 14⟩),
  (⟨false, 25893509291313925, 22⟩, ⟨false, 13666744693064235, 15⟩),
  (⟨false, 2740942840536013, 22⟩, ⟨false, 16002221188981068, 15⟩),
  (⟨false, 23328311650257382, 24⟩, ⟨false, 1855213484014315, 14⟩),
  (⟨false, 1580745574778328, 24⟩, ⟨false, 21327204321783128, 15⟩),
  (⟨false, 8427479123056716, 26⟩, ⟨false, 24340035764532693, 15⟩),
  (⟨false, 34851612349078554, 28⟩, ⟨false, 2760555479678096, 14⟩),
  (⟨false, 10990180597534515, 29⟩, ⟨false, 31141586701111237, 15⟩),
  (⟨false, 258831266495908, 29⟩, ⟨false, 3496965200824907, 14⟩),
  (⟨false, 4437838059840029, 32⟩, ⟨false, 3911608494906789, 14⟩),
  (⟨false, 5365918308212045, 34⟩, ⟨false, 4361365290848483, 14⟩),
  (⟨false, 43939468922916045, 37⟩, ⟨false, 485039861638042, 13⟩),
  (⟨false, 23114097943885432, 39⟩, ⟨false, 53841385406507506, 15⟩),
  (⟨false, 7274588498292248, 41⟩, ⟨false, 596991218592355, 13⟩),
  (⟨false, 12391497014482679, 44⟩, ⟨false, 6618061779443849, 14⟩),
  (⟨false, 9832375083105887, 47⟩, ⟨false, 7344123859555988, 14⟩),
  (⟨false, 2842323553402701, 50⟩, ⟨false, 8173681050672768, 14⟩),
  (⟨false, 18786080317495154, 55⟩, ⟨false, 9155646652253684, 14⟩),
  (⟨false, 8745980440465012, 60⟩, ⟨false, 10415752443105889, 14⟩)]

/-- `LAGUERRE` (`laguerre.rs:528-560`). -/
def laguerre : List (List (Decimal × Decimal)) :=
  [[], laguerre1, laguerre2, laguerre3, laguerre4, laguerre5, laguerre6, laguerre7, laguerre8, laguerre9, laguerre10,
    laguerre11, laguerre12, laguerre13, laguerre14, laguerre15, laguerre16, laguerre17, laguerre18, laguerre19, laguerre20,
    laguerre21, laguerre22, laguerre23, laguerre24, laguerre25, laguerre26, laguerre27, laguerre28, laguerre29, laguerre30]

/-- The `table` of `nodes` (`gaussian_tables/mod.rs:32-36`). -/
def family : GaussianMethod → List (List (Decimal × Decimal))
  | .legendre => legendre
  | .hermite => hermite
  | .laguerre => laguerre

/-- `table[order]` (`gaussian_tables/mod.rs:41`), with the literals' values; the index is in range
whenever `nodes` gets there. -/
def tables (m : GaussianMethod) (order : ℕ) : List (ℚ × ℚ) :=
  ((family m).getD order []).map fun p => (p.1.value, p.2.value)

end GaussianTables

end Multicalc
