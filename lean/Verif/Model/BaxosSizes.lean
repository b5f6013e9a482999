import Verif.Model.FastDiv
import Mathlib.Analysis.SpecialFunctions.Log.Base
/-!
Model of `hashtable_bin_size` of `mpc/okvs/okvs_utility.hpp`: the number of places of a bin, interpolated in a table of logarithms. The
`double` computations are taken as exact real numbers.
-/

namespace Kunlun.Baxos
open Kunlun Kunlun.FastDiv

/-- okvs_utility.hpp:713-750 `sizes`, in units of 10^-9: row `i` is for `2 ^ i` bins, column `j` for `2 ^ j` items. -/
def sizes : List (List Nat) := [
  [0, 1000000000, 2000000000, 3000000000, 4000000000, 5000000000, 6000000000, 7000000000, 8000000000, 9000000000, 10000000000,
    11000000000, 12000000000, 13000000000, 14000000000, 15000000000, 16000000000, 17000000000, 18000000000, 19000000000, 20000000000,
    21000000000, 22000000000, 23000000000, 24000000000, 25000000000, 26000000000, 27000000000, 28000000000, 29000000000, 30000000000],
  [0, 1000000000, 2000000000, 3000000000, 4000000000, 5000000000, 5857980995, 6686500527, 7523561956, 8392317423, 9290018847,
    10210671340, 11152284840, 12109504220, 13078317620, 14055790810, 15039690190, 16028186670, 17019992430, 18014162170, 19010028120,
    20007098460, 21005022770, 22003552910, 23002513060, 24001777210, 25001256650, 26000888430, 27000628020, 28000443860, 29000313630],
  [0, 1000000000, 2000000000, 3000000000, 4000000000, 4754887502, 5459431619, 6129283017, 6870364720, 7665335917, 8491853096,
    9361943774, 10263269200, 11189824560, 12136029850, 13097373770, 14069365850, 15049295520, 16034992350, 17024815020, 18017575080,
    19012447220, 20008808830, 21006232930, 22004409080, 23003118460, 24002205280, 25001559250, 26001102330, 27000779170, 28000550630],
  [0, 1000000000, 2000000000, 3000000000, 3906890596, 4459431619, 5000000000, 5614709844, 6247927513, 6965784285, 7727920455,
    8539158811, 9394462695, 10287712380, 11207624470, 12148794320, 13106399360, 14075813380, 15053925880, 16038276010, 17027139270,
    18019232360, 19013617100, 20009637290, 21006819140, 22004823950, 23003411710, 24002412620, 25001705880, 26001205980, 27000852410],
  [0, 1000000000, 2000000000, 3000000000, 3700439718, 4087462841, 4584962501, 5129283017, 5672425342, 6321928095, 7011227255,
    7761551232, 8566054038, 9413627929, 10301496190, 11217351910, 12156083080, 13111461740, 14079484780, 15056510710, 16040118450,
    17028445700, 18020155260, 19014271160, 20010101900, 21007147060, 22005056020, 23003575900, 24002528770, 25001787980, 26001264010],
  [0, 1000000000, 2000000000, 3000000000, 3459431619, 3807354922, 4247927513, 4700439718, 5169925001, 5727920455, 6357552005,
    7033423002, 7781359714, 8581200582, 9426264755, 10309476350, 11223398410, 12160501750, 13114718390, 14081733080, 15061497770,
    16041274130, 17029265660, 18020741260, 19014685240, 20010394250, 21007354460, 22005202710, 23003679690, 24002602160, 25001839900],
  [0, 1000000000, 2000000000, 2807354922, 3169925001, 3584962501, 3906890596, 4321928095, 4700439718, 5209453366, 5754887502,
    6375039431, 7055282436, 7794415866, 8592457037, 9434628228, 10315149560, 11228217440, 12163649680, 13116993680, 14083396220,
    15059302210, 16042108210, 17029858760, 18021153500, 19014979390, 20010603230, 21007502290, 22005307240, 23003753790, 24002654520],
  [0, 1000000000, 2000000000, 2807354922, 3000000000, 3321928095, 3584962501, 4000000000, 4321928095, 4754887502, 5247927513,
    5781359714, 6392317423, 7066089190, 7807354922, 8599912842, 9440869168, 10320800550, 11231221180, 12166163080, 13118778890,
    14084725360, 15060231510, 16042770860, 17030322280, 18021484280, 19015216300, 20010769840, 21007620000, 22005390860, 23003812800],
  [0, 1000000000, 2000000000, 2584962501, 2807354922, 3169925001, 3321928095, 3700439718, 4000000000, 4392317423, 4807354922,
    5247927513, 5807354922, 6409390936, 7076815597, 7813781191, 8607330314, 9445014846, 10324180550, 11234218680, 12168358730,
    13120399900, 14085804380, 15061033600, 16043326390, 17030731790, 18021771620, 19015417770, 20010914590, 21007722640, 22005463160],
  [0, 1000000000, 2000000000, 2321928095, 2584962501, 3000000000, 3169925001, 3459431619, 3700439718, 4000000000, 4392317423,
    4807354922, 5285402219, 5807354922, 6426264755, 7087462841, 7826548487, 8614709844, 9451211112, 10327552640, 11237209960,
    12170238050, 13121857250, 14086799690, 15061750890, 16043860350, 17031098090, 18022037230, 19015605610, 20011047040, 21007817070],
  [0, 1000000000, 2000000000, 2321928095, 2584962501, 2807354922, 3000000000, 3169925001, 3459431619, 3700439718, 4087462841,
    4392317423, 4807354922, 5285402219, 5832890014, 6426264755, 7098032083, 7832890014, 8618385502, 9455327220, 10332036550,
    11239598530, 12172114930, 13123151430, 14087794300, 15062467820, 16044351430, 17031453530, 18022291950, 19015785260, 20011172650],
  [0, 1000000000, 2000000000, 2321928095, 2321928095, 2584962501, 2807354922, 3000000000, 3169925001, 3459431619, 3700439718,
    4087462841, 4459431619, 4857980995, 5321928095, 5832890014, 6442943496, 7108524457, 7839203788, 8625708843, 9459431619, 10335390350,
    11241983150, 12173989370, 13124444460, 14088788240, 15063142250, 16044842330, 17031798110, 18022535790, 19015956720],
  [0, 1000000000, 2000000000, 2000000000, 2321928095, 2321928095, 2584962501, 2807354922, 3000000000, 3169925001, 3459431619,
    3807354922, 4087462841, 4459431619, 4857980995, 5321928095, 5857980995, 6459431619, 7118941073, 7845490051, 8629356620, 9463524373,
    10338736380, 11244363840, 12175861380, 13125736330, 14089698740, 15063816370, 16045311740, 17032131850, 18022774160],
  [0, 1000000000, 2000000000, 2000000000, 2321928095, 2321928095, 2584962501, 2584962501, 2807354922, 3000000000, 3321928095,
    3459431619, 3807354922, 4087462841, 4459431619, 4857980995, 5357552005, 5882643049, 6459431619, 7129283017, 7851749041, 8636624621,
    9467605550, 10342074670, 11246740600, 12177419540, 13127027040, 14090608670, 15064448070, 16045759660, 17032465500],
  [0, 1000000000, 1584962501, 2000000000, 2000000000, 2321928095, 2321928095, 2584962501, 2584962501, 2807354922, 3000000000,
    3321928095, 3584962501, 3807354922, 4169925001, 4459431619, 4906890596, 5357552005, 5882643049, 6475733431, 7139551352, 7857980995,
    8643856190, 9473705750, 10344295910, 11249113450, 12179287100, 13128316600, 14091518030, 15065079490, 16046228770],
  [0, 1000000000, 1584962501, 2000000000, 2000000000, 2000000000, 2321928095, 2321928095, 2584962501, 2807354922, 2807354922,
    3169925001, 3321928095, 3584962501, 3807354922, 4169925001, 4523561956, 4906890596, 5357552005, 5906890596, 6491853096, 7149747120,
    7870364720, 8647458426, 9477758266, 10347621370, 11251482410, 12180841570, 13129444020, 14092344220, 15065710640],
  [0, 1000000000, 1584962501, 1584962501, 2000000000, 2000000000, 2000000000, 2321928095, 2321928095, 2584962501, 2807354922,
    3000000000, 3169925001, 3321928095, 3584962501, 3906890596, 4169925001, 4523561956, 4906890596, 5392317423, 5906890596, 6491853096,
    7159871337, 7876516947, 8654636029, 9481799432, 10350939180, 11253847480, 12182704710, 13130731430, 14093252490],
  [0, 1000000000, 1584962501, 1584962501, 1584962501, 2000000000, 2000000000, 2000000000, 2321928095, 2321928095, 2584962501,
    2807354922, 3000000000, 3169925001, 3321928095, 3584962501, 3906890596, 4169925001, 4523561956, 4954196310, 5392317423, 5930737338,
    6507794640, 7159871337, 7882643049, 8658211483, 9485829309, 10354249380, 11256208690, 12184255500, 13131856960],
  [0, 1000000000, 1584962501, 1584962501, 1584962501, 2000000000, 2000000000, 2000000000, 2321928095, 2321928095, 2584962501,
    2584962501, 2807354922, 3000000000, 3169925001, 3321928095, 3584962501, 3906890596, 4169925001, 4584962501, 4954196310, 5426264755,
    5930737338, 6523561956, 7169925001, 7888743249, 8665335917, 9489847960, 10357552000, 11258566030, 12185804620],
  [0, 1000000000, 1584962501, 1584962501, 1584962501, 1584962501, 2000000000, 2000000000, 2000000000, 2321928095, 2321928095,
    2584962501, 2584962501, 2807354922, 3000000000, 3169925001, 3459431619, 3700439718, 3906890596, 4247927513, 4584962501, 4954196310,
    5426264755, 5954196310, 6523561956, 7179909090, 7894817763, 8668884984, 9493855449, 10359749560, 11260919530],
  [0, 1000000000, 1584962501, 1584962501, 1584962501, 1584962501, 1584962501, 2000000000, 2000000000, 2000000000, 2321928095,
    2321928095, 2584962501, 2584962501, 2807354922, 3000000000, 3169925001, 3459431619, 3700439718, 3906890596, 4247927513, 4584962501,
    5000000000, 5426264755, 5954196310, 6539158811, 7189824559, 7900866808, 8675957033, 9497851837, 10363039630],
  [0, 1000000000, 1000000000, 1584962501, 1584962501, 1584962501, 1584962501, 2000000000, 2000000000, 2000000000, 2000000000,
    2321928095, 2321928095, 2584962501, 2584962501, 2807354922, 3000000000, 3169925001, 3459431619, 3700439718, 4000000000, 4247927513,
    4584962501, 5000000000, 5459431619, 5977279923, 6554588852, 7199672345, 7906890596, 8679480100, 9501837185],
  [0, 1000000000, 1000000000, 1584962501, 1584962501, 1584962501, 1584962501, 1584962501, 2000000000, 2000000000, 2000000000,
    2321928095, 2321928095, 2321928095, 2584962501, 2807354922, 2807354922, 3000000000, 3321928095, 3459431619, 3700439718, 4000000000,
    4247927513, 4643856190, 5000000000, 5459431619, 5977279923, 6554588852, 7209453366, 7912889336, 8682994584],
  [0, 1000000000, 1000000000, 1000000000, 1584962501, 1584962501, 1584962501, 1584962501, 1584962501, 2000000000, 2000000000,
    2000000000, 2321928095, 2321928095, 2321928095, 2584962501, 2807354922, 2807354922, 3000000000, 3321928095, 3459431619, 3700439718,
    4000000000, 4321928095, 4643856190, 5044394119, 5491853096, 6000000000, 6569855608, 7209453366, 7918863237],
  [0, 1000000000, 1000000000, 1000000000, 1584962501, 1584962501, 1584962501, 1584962501, 1584962501, 1584962501, 2000000000,
    2000000000, 2000000000, 2321928095, 2321928095, 2584962501, 2584962501, 2807354922, 3000000000, 3169925001, 3321928095, 3459431619,
    3700439718, 4000000000, 4321928095, 4643856190, 5044394119, 5491853096, 6000000000, 6584962501, 7219168520],
  [0, 1000000000, 1000000000, 1000000000, 1000000000, 1584962501, 1584962501, 1584962501, 1584962501, 1584962501, 2000000000,
    2000000000, 2000000000, 2000000000, 2321928095, 2321928095, 2584962501, 2584962501, 2807354922, 3000000000, 3169925001, 3321928095,
    3459431619, 3807354922, 4000000000, 4321928095, 4643856190, 5044394119, 5491853096, 6022367813, 6584962501],
  [0, 1000000000, 1000000000, 1000000000, 1000000000, 1584962501, 1584962501, 1584962501, 1584962501, 1584962501, 1584962501,
    2000000000, 2000000000, 2000000000, 2000000000, 2321928095, 2321928095, 2584962501, 2584962501, 2807354922, 3000000000, 3169925001,
    3321928095, 3584962501, 3807354922, 4000000000, 4321928095, 4700439718, 5087462841, 5523561956, 6022367813],
  [0, 1000000000, 1000000000, 1000000000, 1000000000, 1000000000, 1584962501, 1584962501, 1584962501, 1584962501, 1584962501,
    1584962501, 2000000000, 2000000000, 2000000000, 2321928095, 2321928095, 2321928095, 2584962501, 2584962501, 2807354922, 3000000000,
    3169925001, 3321928095, 3584962501, 3807354922, 4087462841, 4392317423, 4700439718, 5087462841, 5523561956],
  [0, 1000000000, 1000000000, 1000000000, 1000000000, 1000000000, 1000000000, 1584962501, 1584962501, 1584962501, 1584962501,
    1584962501, 1584962501, 2000000000, 2000000000, 2000000000, 2321928095, 2321928095, 2321928095, 2584962501, 2584962501, 2807354922,
    3000000000, 3169925001, 3321928095, 3584962501, 3807354922, 4087462841, 4392317423, 4700439718, 5087462841],
  [0, 1000000000, 1000000000, 1000000000, 1000000000, 1000000000, 1000000000, 1584962501, 1584962501, 1584962501, 1584962501,
    1584962501, 1584962501, 2000000000, 2000000000, 2000000000, 2000000000, 2321928095, 2321928095, 2321928095, 2584962501, 2807354922,
    2807354922, 3000000000, 3169925001, 3321928095, 3584962501, 3807354922, 4087462841, 4392317423, 4754887502],
  [0, 1000000000, 1000000000, 1000000000, 1000000000, 1000000000, 1000000000, 1000000000, 1584962501, 1584962501, 1584962501,
    1584962501, 1584962501, 1584962501, 2000000000, 2000000000, 2000000000, 2000000000, 2321928095, 2321928095, 2584962501, 2584962501,
    2807354922, 2807354922, 3000000000, 3169925001, 3459431619, 3584962501, 3807354922, 4087462841, 4392317423],
  [0, 1000000000, 1000000000, 1000000000, 1000000000, 1000000000, 1000000000, 1000000000, 1000000000, 1584962501, 1584962501,
    1584962501, 1584962501, 1584962501, 1584962501, 2000000000, 2000000000, 2000000000, 2000000000, 2321928095, 2321928095, 2584962501,
    2584962501, 2807354922, 2807354922, 3000000000, 3169925001, 3459431619, 3584962501, 3906890596, 4087462841],
  [0, 1000000000, 1000000000, 1000000000, 1000000000, 1000000000, 1000000000, 1000000000, 1000000000, 1584962501, 1584962501,
    1584962501, 1584962501, 1584962501, 1584962501, 1584962501, 2000000000, 2000000000, 2000000000, 2321928095, 2321928095, 2321928095,
    2584962501, 2584962501, 2807354922, 3000000000, 3000000000, 3321928095, 3459431619, 3700439718, 3906890596]]

/-- A table entry as a number. -/
noncomputable def sizeAt (i j : Nat) : ℝ := (((sizes.getD i []).getD j 0 : Nat) : ℝ) / 10 ^ 9

/-- okvs_utility.hpp:752-776 `hashtable_bin_size`; `none` where `count_leading_zeros64` is called with 0. The argument `lambda` is not used
by the code. -/
noncomputable def binSize (B n : Nat) : Option Nat :=
  if B < 2 then some n
  else
    match clz64 (BitVec.ofNat 64 B), clz64 (BitVec.ofNat 64 (B - 1)), clz64 (BitVec.ofNat 64 n), clz64 (BitVec.ofNat 64 (n - 1)) with
    | some z1, some z2, some z3, some z4 =>
      let bl := 64 - z1 - 1
      let bh := 64 - z2
      let il := 64 - z3 - 1
      let ih := 64 - z4
      let bd := Real.logb 2 B - bl
      let d := Real.logb 2 n - il
      if bh < sizes.length ∧ ih < (sizes.getD bh []).length then
        let a0 := bd * sizeAt bl il + (1 - bd) * sizeAt bh il
        let a1 := bd * sizeAt bl ih + (1 - bd) * sizeAt bh ih
        some ⌈(2 : ℝ) ^ (d * a0 + (1 - d) * a1)⌉₊
      else some 0
    | _, _, _, _ => none

end Kunlun.Baxos
