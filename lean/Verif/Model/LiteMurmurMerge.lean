import Verif.Model.LiteMurmur
import Verif.Model.BloomSalts
/-!
Helper facts about `LiteMurmurHash` (utility/murmurhash3.hpp:342-383) for C110: the step of one 8-byte group, and a string of such groups
that takes every salt a constructed Bloom filter can have to the same state. The string was found by a search outside Lean; here it is only
evaluated.
-/

namespace Kunlun.LiteMurmur

open Kunlun

/-- murmurhash3.hpp:356-357: one iteration of the loop, on the two words it loads. -/
def step (d a b : UInt32) : UInt32 := d ^^^ ((d <<< 7) ^^^ (a * (d >>> 3)) ^^^ (~~~((d <<< 11) + (b ^^^ (d >>> 5)))))

/-- `step` on numbers below `2^32`. -/
def stepN (d a b : Nat) : Nat :=
  Nat.xor d (Nat.xor (Nat.xor (Nat.mod (Nat.mul d 128) 4294967296) (Nat.mod (Nat.mul a (Nat.div d 8)) 4294967296))
    (Nat.sub 4294967295 (Nat.mod (Nat.add (Nat.mod (Nat.mul d 2048) 4294967296) (Nat.xor b (Nat.div d 32))) 4294967296)))

theorem stepN_eq (d a b : UInt32) : (step d a b).toNat = stepN d.toNat a.toNat b.toNat := by
  unfold step stepN
  simp only [UInt32.toNat_xor, UInt32.toNat_mul, UInt32.toNat_add, UInt32.toNat_not, UInt32.toNat_shiftLeft, UInt32.toNat_shiftRight]
  simp only [show (7 : UInt32).toNat % 32 = 7 from rfl, show (3 : UInt32).toNat % 32 = 3 from rfl, show (11 : UInt32).toNat % 32 = 11 from rfl,
    show (5 : UInt32).toNat % 32 = 5 from rfl, Nat.shiftLeft_eq, Nat.shiftRight_eq_div_pow]
  rfl

/-- All iterations of a string of groups, given as pairs of words. -/
def go (d : Nat) : List (Nat × Nat) → Nat
  | [] => d
  | (a, b) :: l => go (stepN d a b) l

/-- The string of groups: two words per group. -/
def merge : List (Nat × Nat) := [
   (3973632718, 636079462), (304876240, 2351935761), (4249660467, 1282136320), (326824178, 3218567723), (1911193513, 2920819485), (217652493, 3632283921),
   (1833685949, 3889910117), (153939787, 3812727345), (3518174273, 1089462323), (94000032, 357956568), (3543973061, 3892072291), (2041300506, 2216477589),
   (3367867878, 1166012919), (4106564024, 1333085656), (2849809670, 1410851215), (1937071916, 1823696803), (1846654224, 278990537), (2895693645, 3690147578),
   (2941555694, 4122904614), (4232514195, 637160969), (2206896733, 673739882), (4127715497, 2428258738), (4266822153, 2997500313), (1808812101, 447567113),
   (2545483940, 3931907717), (4272750030, 1457896804), (99592074, 2994382341), (3017188530, 2501680860), (3194504406, 1751396682), (4070277588, 3459621180),
   (1450041557, 2270655773), (3797083640, 907611165), (4076338855, 2447523149), (3327020243, 2178540855), (3657383762, 1156877682), (3817270453, 665779132),
   (1804139323, 498498713), (3463385374, 2790849070), (1762718168, 2524882608), (2946689392, 1714797538), (4176144162, 3085583831), (4187202281, 529860683),
   (2901035968, 1226655391), (86011565, 841885968), (3738604642, 3137146256), (716303312, 2449455756), (4264211797, 961822193), (2552440598, 3947899021),
   (2650848925, 1490015353), (3966494235, 2807172725), (3774030970, 2254126776), (1184854082, 151432894), (2741940968, 2126767655), (3544606837, 3441080527),
   (2127500520, 1145555299), (1255544323, 82985168), (2153553930, 1500526894), (899099486, 4198891400), (4130603568, 2729767115), (1900007241, 2418468825),
   (1466591396, 1034017284), (224814252, 977813603), (464983140, 2336784016), (3695811077, 3968397287), (3411278925, 2174837322), (1393584089, 3285058518),
   (1999702869, 3661430870), (1709935933, 807458398), (1335068469, 2794150236), (1623506609, 3832111317), (4154044756, 3446044572), (624287837, 41407238),
   (1029870862, 2140095812), (4284249077, 345732798), (3090791848, 1078973590), (1262553969, 544538670), (2740990662, 3506848950), (2279099577, 2615480281),
   (4015044576, 292203465), (1277443900, 1257958939), (1488001316, 1236298978), (206115209, 4207437518), (3630249782, 2623277325), (2363675549, 35114312),
   (643745742, 3696064545), (127793831, 192480867), (407052036, 3025344900), (1113786859, 1255170605), (3013712719, 836102426), (1295692957, 1043340379),
   (3527628764, 202242497), (3026745677, 1061449530), (3899324885, 4058443588), (1006455648, 2907050301), (4107553650, 1153629485), (4130617474, 1377905274),
   (680745087, 638179772), (4216001615, 1592452948), (3548901317, 2508585196), (4166858490, 3355712728), (860019483, 3938928202), (1814984907, 30471174),
   (3632132406, 839645655), (3230250476, 1124595940), (202463427, 2319293736), (2250135559, 1122857935), (1614606802, 3821033081), (1229661231, 3021266565),
   (2650327954, 98403206), (4078319343, 4274571346), (2508850654, 2860500265), (2833798984, 1492556814), (3196184026, 3871746193), (525627657, 3755273037),
   (4207308225, 3905690873), (4282810378, 127001542), (1689187290, 1940111376), (3199815531, 2144967856), (3252549056, 740499490), (3145207550, 2155408979),
   (4068821311, 2495274081), (390081788, 3828775121), (2311714160, 1247883871), (4227651689, 700749998), (2114845088, 2168997116), (93664635, 3137614219),
   (633943306, 3437989072), (298836992, 915631564), (1680563244, 1624478407), (4200368494, 168054902), (2190810321, 2042800926), (468757291, 1312483226),
   (1803494890, 3646324497), (1077986255, 3959153219), (3861495736, 2182485635), (3457102129, 3636774359), (2719498016, 927035584), (2514762088, 3596582675),
   (3812069102, 878509811), (1355203578, 29526140), (3911104192, 3036066921), (2877179804, 4239044984), (2716093399, 686448549), (4054405020, 760751087),
   (989196173, 1745635949), (4022106734, 2133060958), (1237231751, 899322370), (2793883361, 1670595741), (3842932222, 3293128770), (753551399, 326637709),
   (576901960, 1516138624), (3245284753, 1070112654), (207494804, 1900057891), (3992778963, 1423665393), (1065861194, 284939837), (1755053876, 1912844444),
   (3227925879, 1158207046), (4172438903, 3615311540), (1828237826, 1292333521), (1699819225, 576642991), (1645647439, 3608849968), (2387474899, 2948453259),
   (3796606576, 3143048526), (2665996395, 1567360968), (1093539188, 2791697998), (2135083117, 663343218), (520656457, 2808721793), (3019129452, 2247472375),
   (292132066, 231273000), (179765035, 591141080), (1812175805, 3990023000), (299992033, 4197542567), (3615045645, 1038438615), (422105162, 4244494541),
   (2809002124, 2043381696), (3358758931, 710365709), (648268910, 3389654196), (3614917836, 1188395224), (336960301, 3108194895), (2204978451, 100926621),
   (3284444870, 1475943157), (3617411406, 1835457094), (3345505318, 1157011113), (861065795, 1944839083), (2046389197, 696674183), (2064235813, 3061227326),
   (1226716541, 4117298100), (1589044750, 3378913951), (3860803511, 655175808), (2412570955, 2451385285), (360121465, 3432085614), (166559763, 597353817),
   (920009016, 1874678858), (1925792335, 2372763040), (1365856993, 815749882), (2902160808, 3885295152), (3653747989, 1474278336), (584401915, 540345181),
   (4050594608, 1844049459), (80087652, 2354282740), (1687914149, 3101590038), (1808410567, 4189850813), (1703258665, 1045395182), (2554734093, 956013290),
   (1430990033, 572224982), (4024069902, 2189687614), (3044262979, 3676535303), (2366785471, 2947148557), (2309963590, 3723022121), (4274826667, 409601152),
   (3787200185, 475247975), (566042160, 2844805306), (515145110, 648200077), (3827053871, 4078147322), (4127938259, 2397441083), (1222308276, 4060216795),
   (750092092, 3001196053), (2127798154, 1698802308), (3524844235, 269571348), (681331615, 464689493), (3032391205, 2029057450), (391016497, 3685514952),
   (3892741059, 904234885), (3136617589, 3755874171), (1687046862, 3016237328), (4228687748, 2074418856), (1257421776, 350772519), (1935800597, 1018363668),
   (3071551857, 2504992078), (2596858754, 2880810691), (2010927200, 764908252), (4009429310, 275660496), (2965788091, 3382087303), (1862453152, 3130013146),
   (172772175, 2621412914), (591889273, 1369704451), (623359033, 2097026520), (2518965374, 4172483488), (236664459, 845865268), (2369469598, 1707007194),
   (2313588812, 1199698090), (385001503, 4019613085), (1193405223, 2914664259), (1777935937, 3058106510), (4270632111, 2586528446), (570748933, 492412020),
   (898479893, 600354641), (1943832978, 1232544089), (1946076123, 1573341575), (2935740703, 189156889), (969876309, 1221827225), (4145984001, 3247311598),
   (3991813771, 1917912339), (250056588, 3762568126), (2771039378, 1995881830), (3641408752, 3332055144), (1513360212, 1479757601), (2015539173, 1375212545),
   (4275039065, 2045184687), (2983602790, 14518361), (1842419860, 4186656248), (24840807, 995870042), (2899465142, 1608374685), (1603790218, 3057162102),
   (3601807033, 3581013563), (2477886605, 726489603), (1112502105, 1555375853), (1187274525, 1231094447), (4267309940, 1661348651), (469312502, 1025931886),
   (3662879955, 2083791555), (3669966073, 818591608), (2963015661, 801009876), (171113348, 1004777520), (407266893, 3076704076), (188287926, 1032996454),
   (2270657286, 4030452804), (1950630079, 2617157295), (3527003125, 1987015123), (3021292221, 530977501), (610386479, 344730706), (3217547034, 266366729),
   (2661202211, 1058287460), (2780881671, 1784678627), (837434803, 259486400), (1446354118, 2250114175), (3692971094, 12527155), (1285697751, 1429364729),
   (1653983111, 2998840278), (1507442520, 3359477531), (1813549158, 2952970825), (3822816416, 208796939), (2076167270, 601835467), (599801160, 2134800640),
   (4074289759, 4104816780), (4227130688, 1068153888), (2435959334, 3003167613), (3111965169, 2850102445), (1767295983, 2549382386), (3624694810, 286273025),
   (1560861456, 2138606918), (1864706723, 1410791049), (2611544240, 3313381687), (1840915746, 884986594), (2065739198, 2041736171), (1337549393, 1294176071),
   (3373809670, 725725423), (3698452644, 493505034), (4220647968, 2159749246), (821140071, 680504708), (4086720910, 1687848093), (3908626269, 1107832145),
   (2635729626, 2820901088), (3727458388, 2977499659), (764326028, 1040950280), (943677579, 3509297278), (3046139655, 912558185), (1234260240, 55084250),
   (785916770, 3472184234), (4004065475, 1017452112), (1594237899, 1256497014), (3929038873, 2989766222), (1670205067, 1768966440), (1769812875, 4079815367),
   (1940366231, 1003349994), (841447739, 2990650033), (1514534522, 1268076872), (1251342510, 3705191223), (4199194005, 159926632), (1965179499, 447072509),
   (3361387020, 485098614), (2549382759, 3073232766), (1409519763, 1144189208), (3288982549, 3480479517), (2058726845, 2390306035), (679619848, 3405074217),
   (3627479041, 2356497471), (2577814644, 3073438084), (152937353, 2333895097), (1735973867, 3382946248), (1207407775, 2660665126), (3689851595, 3148776793),
   (3416945517, 2440221841), (1961981828, 3427153630), (3668190341, 200001464), (1274028781, 2956581282), (3392240124, 3711774314), (4102042313, 3034632553),
   (2514994058, 429403889), (4039781998, 2489766631), (1751117554, 2568903315), (2088644673, 729196032), (4052046999, 190213831), (3718534462, 2086721770),
   (362961373, 1452687526), (2026525461, 1215455569), (3221631984, 728879306), (2600611942, 4054003047), (1282655491, 3042422246), (313370557, 3167259724),
   (4011781236, 641665477), (2201599877, 1231565193), (1872652687, 2601124915), (215471572, 1987755902), (1985436436, 3338859071), (1596403243, 3033803890),
   (1392930645, 3405273825), (2361153135, 376991033), (86631172, 1714808703), (1430106116, 2473919532), (1839352987, 1986632668), (1201331963, 1166204254),
   (1367291157, 4266710247), (3247122318, 3217505110), (551359850, 3220903947), (3508724609, 1178312040), (129880555, 137968849), (3139411309, 2511509162),
   (3771993866, 1277755604), (979954731, 173358590), (2141153525, 2936449954), (846123635, 563360065), (3571679799, 1434047295), (911731236, 2115184442),
   (2593824138, 1727101051), (1600034572, 3112908380), (4000349914, 1190986446), (2048407336, 3966078291), (936803362, 3092634260), (1674897822, 3699771529),
   (1241837660, 3392462519), (2788938252, 220590675), (3621941713, 4160167752), (2784269917, 1380856070), (3693263383, 3392423172), (3754742244, 3305005895),
   (1659364947, 941300232), (1305916998, 3985339237), (3966623454, 4235405976), (1718915289, 2568987861), (727562593, 3505392276), (1993702720, 1325344211),
   (2880646352, 4144641431), (1494889159, 1181478419), (3907374420, 337873142), (2005956539, 2876674223), (1356537806, 911344489), (3097721468, 2505627059),
   (1137223371, 300911733), (1532507795, 459594920), (2741426504, 1660855715), (4083498741, 2203198835), (2290759124, 2595791710), (1344318192, 1944897939),
   (4082184403, 4092691699), (4284064631, 3175886786), (810598681, 3509724519), (37235655, 2403861138), (3712687773, 2532227760), (3250647629, 1340935953),
   (2064864731, 4044918592), (1233929840, 711755140), (4080222450, 589788145), (3678315339, 3442566876), (1501322036, 1074527454), (564095945, 665898569),
   (3285042479, 143952834), (1730954180, 4088412695), (4134655566, 2123866512), (607166800, 104756790), (499312, 2484972574), (1020414465, 4201891930),
   (3036397850, 2888441095), (3847774814, 3459467036), (967343638, 2381300762), (2206163383, 1153678799), (2016134254, 3766335414), (1305127124, 3282970452),
   (454031810, 3661119275), (3773624152, 2738163270), (3503111904, 2390720754), (1215155639, 777514367), (2129857010, 3396236212), (2350546631, 1528960880),
   (2420525670, 1076821934), (1988995380, 3178969481), (3562265620, 3402252598), (2366540161, 3839255267), (3650222651, 3110177175), (185394420, 3751599354),
   (3073389055, 2410516668), (541806838, 3901857864), (1531785376, 3325998169), (2062953511, 3563346472), (3180408832, 3205723130), (3538669002, 4210217679),
   (4125672738, 3721403712), (1091724456, 2984571037), (47045828, 2255796245), (406328897, 1060666929), (1713903635, 4198236452), (622012752, 2052889032),
   (2609851472, 3470601915), (4176484940, 1212830613), (109308901, 3172936219), (555717934, 3960691863), (1005043508, 3231523493), (1826321256, 4289535892),
   (2046454698, 1200264598), (1217572800, 1945892422), (3567396545, 700082701), (1471091828, 1764616284), (651081769, 3544725739), (1864890026, 2067641304),
   (2635132084, 1902724900), (299911389, 688307580), (793589597, 3085433108), (3907864452, 516691342), (2357535221, 2947003902), (3757972985, 435946673),
   (2664233211, 3085409366), (1400422289, 3227733130), (4248393593, 3929257693), (4107858672, 1154868205), (3452863325, 4293514229), (936385711, 468161117),
   (205098943, 2425692623), (3855604457, 4247345603), (4139770952, 4271502546), (960504698, 1258174561), (3908100162, 1138543726), (232343400, 1353874077),
   (1849782853, 1723749739), (4181825233, 2760718515), (279625406, 4198575931), (2459358596, 763020017), (3771811980, 757845685), (3487093538, 321232300),
   (454798761, 2332518994), (2889571201, 2979327055), (1966318564, 1799770519), (844545419, 3292628248), (3846499695, 346489390), (2491373568, 3830260574),
   (789082810, 3735448490), (1336330861, 2012343092), (1286249195, 2890258995), (2870277092, 637112498), (452319028, 3721537091), (3528720305, 2187229480),
   (2600740285, 3305053328), (3261697566, 302367214), (2124310777, 2626922753), (3194833427, 2186681630), (2077466500, 3988566180), (2309077495, 152087122),
   (729955941, 633564865), (2044558426, 864081990), (1137096659, 904925822), (1336550754, 1993945656), (1074327675, 2503985878), (2977355832, 2426441604),
   (1640419591, 191750925), (2808248384, 1602660474), (1949629218, 23945388)]

/-- The state after the string. -/
def merged : Nat := 2267989607

/-- Do all salts of the list end in `merged`? -/
def allMerge : List UInt32 → Bool
  | [] => true
  | s :: l => (Nat.beq (go s.toNat merge) merged).and (allMerge l)

theorem allMerge_mem {l : List UInt32} (h : allMerge l = true) : ∀ s ∈ l, go s.toNat merge = merged := by
  induction l with
  | nil => simp
  | cons a l ih =>
    simp only [allMerge, Bool.and_eq_true] at h
    intro s hs
    rcases List.mem_cons.mp hs with rfl | hs
    · exact Nat.eq_of_beq_eq_true h.1
    · exact ih h.2 s hs

open Bloom

theorem merge_wSalt : allMerge wSalt = true := by decide +kernel

theorem merge_tail : ∀ m, m < 123 → allMerge (tailSalts (m + 6)) = true := by decide +kernel

theorem merge_small : ∀ n, n < 6 →
    ((List.range n).foldlM (saltStep constructorSeed) (predefinedSalt.take n)).elim false allMerge = true := by
  decide +kernel

/-- Every salt of every filter built with at most 128 hash functions is taken to the same state. -/
theorem merge_salts {rnd : List UInt32} {n : Nat} (hn : n ≤ 128) {v : List UInt32} (h : genUniqueSaltVector rnd n constructorSeed = some v) :
    ∀ s ∈ v, go s.toNat merge = merged := by
  unfold genUniqueSaltVector at h
  rw [if_pos hn] at h
  by_cases h6 : n < 6
  · have := merge_small n h6
    rw [h] at this
    exact allMerge_mem this
  · rw [fold_full n hn (by omega)] at h
    cases h
    intro s hs
    rcases List.mem_append.mp hs with hs | hs
    · exact allMerge_mem merge_wSalt s (List.mem_of_mem_take hs)
    · have := merge_tail (n - 6) (by omega)
      rw [show n - 6 + 6 = n by omega] at this
      exact allMerge_mem this s hs

end Kunlun.LiteMurmur
