import Verif.Model.OkvsNat
import Verif.Model.VoleOprf
/-!
A set of 256 keys for the membership test of `mpc/rpmt/rrpke_mqrpmt.hpp` with the sizes, the seed and the number of threads that the code
uses for sets of this size, and two other keys. The facts are computed with formal values, so they hold for all values.
-/

/-! AES with the substitution table as one number, which is faster to compute with. -/

namespace Kunlun.FastAES

open Kunlun Kunlun.AES

def table : Nat :=
  0x16bb54b00f2d99416842e6bf0d89a18cdf2855cee9871e9b948ed9691198f8e19e1dc186b95735610ef6034866b53e708a8bbd4b1f74dde8c6b4a61c2e2578ba08ae7a65eaf4566ca94ed58d6d37c8e779e4959162acd3c25c2406490a3a32e0db0b5ede14b8ee4688902a22dc4f816073195d643d7ea7c41744975fec130ccdd2f3ff1021dab6bcf5389d928f40a351a89f3c507f02f94585334d43fbaaefd0cf584c4a39becb6a5bb1fc20ed00d153842fe329b3d63b52a05a6e1b1a2c830975b227ebe28012079a059618c323c7041531d871f1e5a534ccf73f362693fdb7c072a49cafa2d4adf04759fa7dc982ca76abd7fe2b670130c56f6bf27b777c63

def sbox (b : BitVec 8) : BitVec 8 := BitVec.ofNat 8 (Nat.shiftRight table (Nat.mul 8 b.toNat))

theorem sbox_eq : ∀ b, sbox b = AES.sbox b := by decide +kernel

def subBytes (a : Block) : Block := Block.ofLanes fun i => sbox (Block.lane a i)

def rounds (rk : Nat → Block) : Nat → Nat → Block → Block
  | _, 0, d => d
  | j, n + 1, d => rounds rk (j + 1) n (mixColumns (subBytes (shiftRows d)) ^^^ rk j)

def enc (k : Key) (d : Block) : Block :=
  subBytes (shiftRows (rounds k.roundkey 1 (k.rounds - 1) (d ^^^ k.roundkey 0))) ^^^ k.roundkey k.rounds

theorem subBytes_eq (a : Block) : subBytes a = AES.subBytes a := by
  unfold subBytes AES.subBytes
  simp only [sbox_eq]

theorem rounds_eq (rk : Nat → Block) (j n : Nat) (d : Block) : rounds rk j n d = encRounds rk j n d := by
  induction n generalizing j d with
  | zero => rfl
  | succ n ih =>
    unfold rounds encRounds
    rw [ih, subBytes_eq]
    rfl

theorem enc_eq (k : Key) (d : Block) : enc k d = AES.enc k d := by
  unfold enc AES.enc aesenclast
  rw [rounds_eq, subBytes_eq]

end Kunlun.FastAES

namespace Kunlun.RrPke

open Kunlun Kunlun.OKVS Kunlun.Baxos

/-- prg.hpp:18 `fixed_seed`. -/
def fixedSeed : Block :=
  Block.ofBytes [0x61, 0x7e, 0x8d, 0xa2, 0xa0, 0x51, 0x1e, 0x96, 0x5e, 0x41, 0xc2, 0x9b, 0x15, 0x3f, 0xc7, 0x7a]

/-- The `Baxos` object for 256 items, bins of two items, weight 3 and statistical parameter 40 (baxos.hpp:49-93): 128 bins; 21 items fit a bin
(`2 ^ 4.321928095`, rounded up) and 11 the slot of a thread (`2 ^ 3.321928095`, rounded up); `log2(21) = 4.392…` gives 63 sparse and 6 dense
columns. -/
def cfg8 : BCfg := ⟨false, 3, 63, 6, 40, 128, 21, 11⟩

/-- Nodes of the linked lists filled with zeros. -/
def zeroNodes : Nat → OKVS.Node := fun _ => ⟨0, none, none⟩

/-- A key has a hash value. -/
def hashIs (p : Block × Block) : Bool := decide (FastAES.enc (PRG.setSeed fixedSeed 0).key p.1 ^^^ p.1 = p.2)

/-! Keys and hash values, two for each bin, in the order of the bins. -/

def part0 : List (Block × Block) := [(57#128, 190821425832894185579532645772169409950#128),
  (72#128, 51830768565163626816703959805791061800#128),
  (14#128, 59924404482809754866430773063508484166#128),
  (171#128, 156715673282884048853401245617318023269#128)]
def part1 : List (Block × Block) := [(4#128, 229146442273895694736846232527168886016#128),
  (20#128, 325654747642684530728652366653505199041#128),
  (114#128, 160554175197467009211548911182589589312#128),
  (238#128, 42829331048704532464725771803203837066#128)]
def part2 : List (Block × Block) := [(150#128, 76389192518700552674027315048596694831#128),
  (160#128, 51264686536943836416634105432005109607#128),
  (122#128, 202105884124599047928067704945892490377#128),
  (187#128, 127443173568491787552152965418579753928#128)]
def part3 : List (Block × Block) := [(276#128, 81646884772569133101628713402799637427#128),
  (355#128, 118190289736901403029465269765572923034#128),
  (89#128, 91307044241933349453298004760003729743#128),
  (91#128, 208142003900708880228707101982011607814#128)]
def part4 : List (Block × Block) := [(175#128, 33551917357096758250434429600688335275#128),
  (231#128, 13444413624770270029217525861269197169#128),
  (321#128, 263829377556696165191678503031731914931#128),
  (324#128, 340012384068811690669539978686268687028#128)]
def part5 : List (Block × Block) := [(265#128, 253333013112907590346352108858005496621#128),
  (286#128, 337301739508138213860265824090014547629#128),
  (80#128, 219045560706757086382255594111302191868#128),
  (290#128, 18940943243343575711537149589680242759#128)]
def part6 : List (Block × Block) := [(259#128, 151669292069404676846990652712638362347#128),
  (481#128, 243643496874326291053523530052247889391#128),
  (163#128, 162534786480336827546923917916831419992#128),
  (196#128, 110836632449603069790733347468940227959#128)]
def part7 : List (Block × Block) := [(99#128, 332215566218131382620335110430780939573#128),
  (217#128, 231356079436096350038664988664852530773#128),
  (106#128, 298238785394686184785797573583484431283#128),
  (190#128, 237350852284586984547467272429677314710#128)]
def part8 : List (Block × Block) := [(266#128, 322634764290667510389779667037732656491#128),
  (302#128, 223751254871243667814428838608870429656#128),
  (193#128, 266404746327595491119387432773779637089#128),
  (213#128, 219521078960762436292269851315623509605#128)]
def part9 : List (Block × Block) := [(55#128, 198212233306541007978582179996115253038#128),
  (63#128, 144638932101691731533071168840838919517#128),
  (67#128, 241380678128963699139840826750130603084#128),
  (96#128, 292423322509841389778878687068463962305#128)]
def part10 : List (Block × Block) := [(43#128, 330805563787631236707286109515768257403#128),
  (323#128, 59636307773810854703347535611809435858#128),
  (144#128, 65292011719390741660559804507048199369#128),
  (198#128, 278920668475461323441899813445234574983#128)]
def part11 : List (Block × Block) := [(210#128, 157968565631726235553651131633529127167#128),
  (472#128, 13738490497667079625326761567722086785#128),
  (169#128, 68297831527335131054683211646599699249#128),
  (338#128, 105866436025838651475776253298664358708#128)]
def part12 : List (Block × Block) := [(149#128, 76002988761176936320405323050643576807#128),
  (256#128, 330930032150512232244994282369864207506#128),
  (441#128, 37698456386354117069595055544551258713#128),
  (803#128, 271390208813848872274662294943907937905#128)]
def part13 : List (Block × Block) := [(136#128, 87535700204506043622792991056595061986#128),
  (289#128, 45312321037432892238644028649344594651#128),
  (90#128, 279339512426661464211163864788153959641#128),
  (102#128, 110128357416405998849516810399809560799#128)]
def part14 : List (Block × Block) := [(214#128, 285422961156525814462235676504296958921#128),
  (272#128, 300735212342661179747510794897292546038#128),
  (54#128, 160602552642271901152810780404343091358#128),
  (142#128, 170287211402485250648281089890256162179#128)]
def part15 : List (Block × Block) := [(145#128, 329201607834163106833776964313940657650#128),
  (486#128, 123897148704110819226025774612014767961#128),
  (257#128, 71006217283742062182759853994591503901#128),
  (491#128, 287832818926659463167035038475950866535#128)]
def part16 : List (Block × Block) := [(11#128, 59493367173648985440814184493323799107#128),
  (124#128, 205922845268228167622614646838722568555#128),
  (61#128, 268185826915527665855841200623376186983#128),
  (838#128, 329147990413127867038904084795426253034#128)]
def part17 : List (Block × Block) := [(75#128, 146656712237814402825636430198318763401#128),
  (132#128, 58812468713539082181862140556584675490#128),
  (87#128, 165927493995199138883672070241795636782#128),
  (188#128, 120016315892247642861033253808616763991#128)]
def part18 : List (Block × Block) := [(9#128, 127491648776132214824903921777589117087#128),
  (108#128, 221987745253271519000949849477602315455#128),
  (115#128, 101813704306435192394766038380037607916#128),
  (348#128, 53224636007002877949444333060767342168#128)]
def part19 : List (Block × Block) := [(21#128, 319825609367151936726065720167389662186#128),
  (298#128, 265849454996078520011268690430228705423#128),
  (26#128, 251822891081841479029062124790239863306#128),
  (133#128, 202171130799547080942408495340282867621#128)]
def part20 : List (Block × Block) := [(224#128, 123962862122815228809550004732004518166#128),
  (676#128, 249717138779013204295363545141640525157#128),
  (27#128, 138433378394405627058598402217145776960#128),
  (121#128, 300981000378296520649813620067690985572#128)]
def part21 : List (Block × Block) := [(104#128, 173529516839502833189103109037192112995#128),
  (166#128, 178771321635104282348265133454900676139#128),
  (50#128, 287248319819104614334791731389575540434#128),
  (227#128, 205500436704697865735328450791982042447#128)]
def part22 : List (Block × Block) := [(476#128, 263718615712506706396305432867477900504#128),
  (581#128, 66380384707742659976722517413979736156#128),
  (33#128, 118268306304287191032402003012930903228#128),
  (123#128, 314094509521497847940746044653254383949#128)]
def part23 : List (Block × Block) := [(52#128, 148312114761643589859609148031364741148#128),
  (59#128, 207244990553897964873061718541076078842#128),
  (182#128, 220693887347105323836512679912383925028#128),
  (195#128, 281593531150998889618762091435171080235#128)]
def part24 : List (Block × Block) := [(88#128, 73231580918427182247730513813036469930#128),
  (271#128, 121147615727344209132573207846536385344#128),
  (69#128, 157620722326203242006276026748671466763#128),
  (168#128, 325396499146003491094048074011782779813#128)]
def part25 : List (Block × Block) := [(105#128, 230085405829452684987316835907472870674#128),
  (120#128, 26649418834670251671616092956507357994#128),
  (303#128, 41390278736546406101786234111117147591#128),
  (318#128, 118170066477118744767089389321953026992#128)]
def part26 : List (Block × Block) := [(200#128, 222609705767466279834799769227525637772#128),
  (277#128, 153095747912748799041213309378127836094#128),
  (140#128, 121400693553582375545113486617828831418#128),
  (154#128, 303481721034313213997097005266059589426#128)]
def part27 : List (Block × Block) := [(32#128, 279842732005062380734174936298913724898#128),
  (82#128, 201503908840052648375695982058465217318#128),
  (248#128, 174355472869994892014160869588761797629#128),
  (380#128, 67393745797114687722375376433884754974#128)]
def part28 : List (Block × Block) := [(92#128, 187022824173098202161293695761132557540#128),
  (170#128, 306320209753065312641397795710561435191#128),
  (165#128, 66905794285540516261424097559409259431#128),
  (208#128, 238872321744336070252102986836370813605#128)]
def part29 : List (Block × Block) := [(93#128, 81251426893183210182567412792306735120#128),
  (127#128, 48442186504896634459553062788621360417#128),
  (28#128, 21872636690413862307275345136847679315#128),
  (86#128, 197125430970716979847393385043811907233#128)]
def part30 : List (Block × Block) := [(25#128, 229163062002049106139840507400748690246#128),
  (143#128, 79697388184308101353177785957630921829#128),
  (77#128, 224126228371004934620265827912346001716#128),
  (126#128, 11490542622111210948283578750439818640#128)]
def part31 : List (Block × Block) := [(220#128, 108235117671693176401592661834723766595#128),
  (232#128, 249562858742591548454719894748075008263#128),
  (533#128, 213017506811953616129304821123183660907#128),
  (647#128, 117068590007146487805843286267776697873#128)]
def part32 : List (Block × Block) := [(336#128, 278649127559105138840013923621795605747#128),
  (586#128, 77228361977393881717719661959081357457#128),
  (65#128, 242197011780955450699809024638245223896#128),
  (100#128, 264076871804224902547692818782244108625#128)]
def part33 : List (Block × Block) := [(74#128, 316234659833470383929525965119463340338#128),
  (253#128, 114024883508286398686926905427776984928#128),
  (47#128, 284340174114302837046991129018787937367#128),
  (341#128, 330587120852185111435791598438660725733#128)]
def part34 : List (Block × Block) := [(130#128, 270393539363521111532466269063050558351#128),
  (184#128, 70082457943957035090452798738462118130#128),
  (6#128, 284833588843667128025513502716013171475#128),
  (40#128, 99913761688632149011409502037323790145#128)]
def part35 : List (Block × Block) := [(13#128, 40820227457101878428204346133344773545#128),
  (156#128, 157588260537259139175991694817580435545#128),
  (364#128, 58669613384663023622064827239992688262#128),
  (571#128, 149979374063339449564806894539898206936#128)]
def part36 : List (Block × Block) := [(15#128, 184504194563457255929885647709906476056#128),
  (42#128, 242326036534638766175835819866316594428#128),
  (39#128, 205565604895487590622601201405965312737#128),
  (269#128, 189135889658804255442547341140577698797#128)]
def part37 : List (Block × Block) := [(23#128, 42645271016971471378766137403140345897#128),
  (30#128, 338201169758047191746866051290042563263#128),
  (78#128, 125855272041916263678468207137607056923#128),
  (225#128, 121760216002866895817250544792408970419#128)]
def part38 : List (Block × Block) := [(185#128, 199206610019781116724471101050861241571#128),
  (415#128, 96397285583312584438044529828682913767#128),
  (62#128, 275283783884271435868173410230654183060#128),
  (316#128, 97298139191252903634673480119053350967#128)]
def part39 : List (Block × Block) := [(141#128, 188413142332833536064834290852926280535#128),
  (288#128, 250174747564259633769883697269378107829#128),
  (223#128, 339030793436973668243436448076482447818#128),
  (291#128, 111452061701821846411129550166673399441#128)]
def part40 : List (Block × Block) := [(46#128, 14187424611558798692891941406749722819#128),
  (53#128, 260214061648096383865141834395042846935#128),
  (38#128, 315594096838159634679922207255919549519#128),
  (112#128, 211171150787477833833468989617231560993#128)]
def part41 : List (Block × Block) := [(85#128, 167193648750205837480864979352411011903#128),
  (146#128, 71035354534599517686766808053206945496#128),
  (16#128, 232658762116600914027509977205115826483#128),
  (44#128, 99763344429317426964497912579043817243#128)]
def part42 : List (Block × Block) := [(131#128, 195633856316811040782234121355905043067#128),
  (161#128, 339747349716613253216482107204689453556#128),
  (2#128, 218034508780044666701184973831133212031#128),
  (19#128, 231666504245398378552341213508948891456#128)]
def part43 : List (Block × Block) := [(29#128, 113384759868225553648945870064559942493#128),
  (101#128, 25306320111167744259558576908221546827#128),
  (233#128, 69529165508464308130602242044154513278#128),
  (309#128, 107699368575816020847223066358718722241#128)]
def part44 : List (Block × Block) := [(12#128, 51422214792976554851874681864861973506#128),
  (76#128, 126838859707405993896742719444183287091#128),
  (329#128, 75924890378895295214864079187104661821#128),
  (410#128, 95481167264624473346405534895572545332#128)]
def part45 : List (Block × Block) := [(1#128, 43349087131597335277426653675581736970#128),
  (10#128, 5341988653673024052026980779302534247#128),
  (36#128, 122102858988218957616892648601442301567#128),
  (66#128, 159184635071934131299752779001990382871#128)]
def part46 : List (Block × Block) := [(186#128, 96357932210989014519754948228405489123#128),
  (194#128, 73501577524880407525874845182935970316#128),
  (7#128, 148762151751817800146960623714203753177#128),
  (240#128, 327253011516380439623728105294618892646#128)]
def part47 : List (Block × Block) := [(125#128, 3936826464590424728886839835480413923#128),
  (228#128, 248886578968311018889458559651557359798#128),
  (95#128, 112545075117783410384882106978947502460#128),
  (155#128, 29717264553579727979438483322579836713#128)]
def part48 : List (Block × Block) := [(368#128, 315965051235743261490605982662574002222#128),
  (452#128, 194579414693130775376426512970115529902#128),
  (157#128, 191926314653694652106452631612727116964#128),
  (235#128, 314832587779208488176374643516586879834#128)]
def part49 : List (Block × Block) := [(37#128, 165202684969744059188909593472911476766#128),
  (113#128, 327718620164281703520139075697349585275#128),
  (58#128, 309772908232553201197275075349629196627#128),
  (167#128, 130127754723386762962150817136153306550#128)]
def part50 : List (Block × Block) := [(134#128, 337642552692559477531157889679142889039#128),
  (202#128, 26278868139559886438886608613966178529#128),
  (34#128, 203180053511450308095389124415699424806#128),
  (413#128, 204096781329502209148220107362157277923#128)]
def part51 : List (Block × Block) := [(51#128, 289067060037090702756383111621050426533#128),
  (176#128, 222872540977141882803952723301670652823#128),
  (174#128, 281120614984669296771445751375183485300#128),
  (349#128, 143817890700617310187990858440220413893#128)]
def part52 : List (Block × Block) := [(189#128, 193114802293759521906958139829574513891#128),
  (192#128, 272486326394437292601565040926351386282#128),
  (103#128, 244964711050190608202671152426641540708#128),
  (118#128, 50193963204517123829054058622919482787#128)]
def part53 : List (Block × Block) := [(117#128, 122581442644094913321579559825588057622#128),
  (135#128, 250539251348100900767716033162246898810#128),
  (177#128, 121379195493493076198006104241215395717#128),
  (191#128, 338756121807004268383182525602949329649#128)]
def part54 : List (Block × Block) := [(305#128, 57550652011056154380108848569678797325#128),
  (480#128, 250683446726726057484535325645196161583#128),
  (412#128, 121500222463266145597002679426992933518#128),
  (459#128, 229593747255916508795476005801131980800#128)]
def part55 : List (Block × Block) := [(84#128, 132656226239434282266186347933337297863#128),
  (326#128, 287609343089088407776521207168613454790#128),
  (8#128, 4249934774740084911862736910742217041#128),
  (31#128, 167343257402693159001835912560098399396#128)]
def part56 : List (Block × Block) := [(397#128, 221739872987820600340902438831391507064#128),
  (788#128, 280342280922017060012764343780588642880#128),
  (3#128, 108425248747386947666308678420991272473#128),
  (17#128, 70723486143020910136654339675926037893#128)]
def part57 : List (Block × Block) := [(22#128, 45999095908473216654667191867912840799#128),
  (543#128, 45673082672262151240289922632296416581#128),
  (0#128, 279797150717262210776778745147427098615#128),
  (24#128, 29193240168667810312991108744128145149#128)]
def part58 : List (Block × Block) := [(64#128, 45367986329677386924258320618422121250#128),
  (81#128, 268106988070621393332655120478469320152#128),
  (18#128, 123985021580958039244567764114129394677#128),
  (268#128, 278664324362050188820558538532327387043#128)]
def part59 : List (Block × Block) := [(56#128, 109149116717143949369265894576633767689#128),
  (424#128, 126465849873035744449972072658070736647#128),
  (399#128, 133388525989780839567190531075798753041#128),
  (431#128, 298479380023442386854656266519001215117#128)]
def part60 : List (Block × Block) := [(5#128, 306002768584005986133679908406557389563#128),
  (68#128, 42638369722875440448186828168205023734#128),
  (60#128, 77314329935159251424360105574255378240#128),
  (79#128, 240536668061305134697496707810256822507#128)]
def part61 : List (Block × Block) := [(294#128, 94141498693758309828943260666777650025#128),
  (433#128, 328946939995107554665723539548931935816#128),
  (306#128, 275125913099908564710943103623896057673#128),
  (665#128, 223286715837420595079003716325333359667#128)]
def part62 : List (Block × Block) := [(164#128, 23688375989926094492114181138299500524#128),
  (204#128, 118012464505911094952271654039363242015#128),
  (41#128, 53595234417983342838249299223939100498#128),
  (455#128, 6574843647014718808633651344981897171#128)]
def part63 : List (Block × Block) := [(247#128, 87436216953456156851349624729485701205#128),
  (251#128, 192432777505801669998607883673965325091#128),
  (70#128, 30577413578598595886594935108358009665#128),
  (97#128, 93806077202412805942871869789883349025#128)]
theorem part0_ok : part0.all hashIs = true := by decide +kernel
theorem part1_ok : part1.all hashIs = true := by decide +kernel
theorem part2_ok : part2.all hashIs = true := by decide +kernel
theorem part3_ok : part3.all hashIs = true := by decide +kernel
theorem part4_ok : part4.all hashIs = true := by decide +kernel
theorem part5_ok : part5.all hashIs = true := by decide +kernel
theorem part6_ok : part6.all hashIs = true := by decide +kernel
theorem part7_ok : part7.all hashIs = true := by decide +kernel
theorem part8_ok : part8.all hashIs = true := by decide +kernel
theorem part9_ok : part9.all hashIs = true := by decide +kernel
theorem part10_ok : part10.all hashIs = true := by decide +kernel
theorem part11_ok : part11.all hashIs = true := by decide +kernel
theorem part12_ok : part12.all hashIs = true := by decide +kernel
theorem part13_ok : part13.all hashIs = true := by decide +kernel
theorem part14_ok : part14.all hashIs = true := by decide +kernel
theorem part15_ok : part15.all hashIs = true := by decide +kernel
theorem part16_ok : part16.all hashIs = true := by decide +kernel
theorem part17_ok : part17.all hashIs = true := by decide +kernel
theorem part18_ok : part18.all hashIs = true := by decide +kernel
theorem part19_ok : part19.all hashIs = true := by decide +kernel
theorem part20_ok : part20.all hashIs = true := by decide +kernel
theorem part21_ok : part21.all hashIs = true := by decide +kernel
theorem part22_ok : part22.all hashIs = true := by decide +kernel
theorem part23_ok : part23.all hashIs = true := by decide +kernel
theorem part24_ok : part24.all hashIs = true := by decide +kernel
theorem part25_ok : part25.all hashIs = true := by decide +kernel
theorem part26_ok : part26.all hashIs = true := by decide +kernel
theorem part27_ok : part27.all hashIs = true := by decide +kernel
theorem part28_ok : part28.all hashIs = true := by decide +kernel
theorem part29_ok : part29.all hashIs = true := by decide +kernel
theorem part30_ok : part30.all hashIs = true := by decide +kernel
theorem part31_ok : part31.all hashIs = true := by decide +kernel
theorem part32_ok : part32.all hashIs = true := by decide +kernel
theorem part33_ok : part33.all hashIs = true := by decide +kernel
theorem part34_ok : part34.all hashIs = true := by decide +kernel
theorem part35_ok : part35.all hashIs = true := by decide +kernel
theorem part36_ok : part36.all hashIs = true := by decide +kernel
theorem part37_ok : part37.all hashIs = true := by decide +kernel
theorem part38_ok : part38.all hashIs = true := by decide +kernel
theorem part39_ok : part39.all hashIs = true := by decide +kernel
theorem part40_ok : part40.all hashIs = true := by decide +kernel
theorem part41_ok : part41.all hashIs = true := by decide +kernel
theorem part42_ok : part42.all hashIs = true := by decide +kernel
theorem part43_ok : part43.all hashIs = true := by decide +kernel
theorem part44_ok : part44.all hashIs = true := by decide +kernel
theorem part45_ok : part45.all hashIs = true := by decide +kernel
theorem part46_ok : part46.all hashIs = true := by decide +kernel
theorem part47_ok : part47.all hashIs = true := by decide +kernel
theorem part48_ok : part48.all hashIs = true := by decide +kernel
theorem part49_ok : part49.all hashIs = true := by decide +kernel
theorem part50_ok : part50.all hashIs = true := by decide +kernel
theorem part51_ok : part51.all hashIs = true := by decide +kernel
theorem part52_ok : part52.all hashIs = true := by decide +kernel
theorem part53_ok : part53.all hashIs = true := by decide +kernel
theorem part54_ok : part54.all hashIs = true := by decide +kernel
theorem part55_ok : part55.all hashIs = true := by decide +kernel
theorem part56_ok : part56.all hashIs = true := by decide +kernel
theorem part57_ok : part57.all hashIs = true := by decide +kernel
theorem part58_ok : part58.all hashIs = true := by decide +kernel
theorem part59_ok : part59.all hashIs = true := by decide +kernel
theorem part60_ok : part60.all hashIs = true := by decide +kernel
theorem part61_ok : part61.all hashIs = true := by decide +kernel
theorem part62_ok : part62.all hashIs = true := by decide +kernel
theorem part63_ok : part63.all hashIs = true := by decide +kernel

/-- All keys of the set with their hash values. -/
def table8 : List (Block × Block) := [part0, part1, part2, part3, part4, part5, part6, part7, part8, part9, part10, part11, part12, part13, part14, part15, part16, part17, part18, part19, part20, part21, part22, part23, part24, part25, part26, part27, part28, part29, part30, part31, part32, part33, part34, part35, part36, part37, part38, part39, part40, part41, part42, part43, part44, part45, part46, part47, part48, part49, part50, part51, part52, part53, part54, part55, part56, part57, part58, part59, part60, part61, part62, part63].flatten

theorem table8_ok : table8.all hashIs = true := by
  unfold table8
  rw [List.all_flatten]
  simp only [List.all_cons, List.all_nil, Bool.and_self, part0_ok, part1_ok, part2_ok, part3_ok, part4_ok, part5_ok, part6_ok, part7_ok, part8_ok, part9_ok, part10_ok, part11_ok, part12_ok, part13_ok, part14_ok, part15_ok, part16_ok, part17_ok, part18_ok, part19_ok, part20_ok, part21_ok, part22_ok, part23_ok, part24_ok, part25_ok, part26_ok, part27_ok, part28_ok, part29_ok, part30_ok, part31_ok, part32_ok, part33_ok, part34_ok, part35_ok, part36_ok, part37_ok, part38_ok, part39_ok, part40_ok, part41_ok, part42_ok, part43_ok, part44_ok, part45_ok, part46_ok, part47_ok, part48_ok, part49_ok, part50_ok, part51_ok, part52_ok, part53_ok, part54_ok, part55_ok, part56_ok, part57_ok, part58_ok, part59_ok, part60_ok, part61_ok, part62_ok, part63_ok]

/-- 256 different keys, two for each bin. -/
def keys8 : List Block := table8.map Prod.fst

/-- Their hash values. -/
def hash8 : List Block := table8.map Prod.snd

theorem hash8_eq : VOLEOPRF.hashes fixedSeed keys8 = hash8 := by
  unfold VOLEOPRF.hashes setDense keys8 hash8
  rw [List.map_map]
  apply List.map_congr_left
  intro p hp
  rw [← of_decide_eq_true (List.all_eq_true.1 table8_ok p hp), FastAES.enc_eq]
  rfl

/-- Hash values of the keys 71 and 35, which are not in the set. -/
def hash71 : Block := 52849099653618528209906422189190869004#128
def hash35 : Block := 232499930147883744700440001415153487893#128

theorem hash_others : VOLEOPRF.hashes fixedSeed [71, 35] = [hash71, hash35] := by decide +kernel

set_option maxRecDepth 100000 in
theorem keys8_length : keys8.length = 256 := by decide +kernel

set_option maxRecDepth 100000 in
theorem keys8_nodup : keys8.Nodup := by decide +kernel

set_option maxRecDepth 100000 in
theorem keys8_others : (71 : Block) ∉ keys8 ∧ (35 : Block) ∉ keys8 := by decide +kernel

/-- Hash value number `i`. -/
def hashAt (i : Nat) : Block := hash8.getD i 0

set_option maxRecDepth 100000 in
theorem hash8_range : hash8 = (List.range 256).map hashAt := by decide +kernel

set_option maxRecDepth 100000 in
theorem hashAt_bin : ∀ i < 256, binOf 128 (hashAt i) = i / 2 := by decide +kernel

/-- Values without content, to see whether `encode` succeeds. -/
def unitOps : ValOps Unit := ⟨(), fun _ _ => (), fun _ _ => (), 0⟩

/-- The two keys of bin `b` can be encoded. -/
def binOk (b : Nat) : Bool :=
  (solveBin unitOps cfg8 zeroNodes none (fun _ => ()) [(hashAt (2 * b), ()), (hashAt (2 * b + 1), ())]).isSome

theorem bins0_ok : (List.range' 0 8).all binOk = true := by decide +kernel
theorem bins1_ok : (List.range' 8 8).all binOk = true := by decide +kernel
theorem bins2_ok : (List.range' 16 8).all binOk = true := by decide +kernel
theorem bins3_ok : (List.range' 24 8).all binOk = true := by decide +kernel
theorem bins4_ok : (List.range' 32 8).all binOk = true := by decide +kernel
theorem bins5_ok : (List.range' 40 8).all binOk = true := by decide +kernel
theorem bins6_ok : (List.range' 48 8).all binOk = true := by decide +kernel
theorem bins7_ok : (List.range' 56 8).all binOk = true := by decide +kernel
theorem bins8_ok : (List.range' 64 8).all binOk = true := by decide +kernel
theorem bins9_ok : (List.range' 72 8).all binOk = true := by decide +kernel
theorem bins10_ok : (List.range' 80 8).all binOk = true := by decide +kernel
theorem bins11_ok : (List.range' 88 8).all binOk = true := by decide +kernel
theorem bins12_ok : (List.range' 96 8).all binOk = true := by decide +kernel
theorem bins13_ok : (List.range' 104 8).all binOk = true := by decide +kernel
theorem bins14_ok : (List.range' 112 8).all binOk = true := by decide +kernel
theorem bins15_ok : (List.range' 120 8).all binOk = true := by decide +kernel

theorem bins_ok : ∀ b < 128, binOk b = true := by
  intro b hb
  have h : b / 8 < 16 := by omega
  have key : ∀ k, (List.range' (8 * k) 8).all binOk = true → b / 8 = k → binOk b = true := fun k hk e =>
    List.all_eq_true.1 hk b (List.mem_range'_1.2 (by omega))
  generalize hk : b / 8 = q at h key
  interval_cases q
  · exact key 0 bins0_ok rfl
  · exact key 1 bins1_ok rfl
  · exact key 2 bins2_ok rfl
  · exact key 3 bins3_ok rfl
  · exact key 4 bins4_ok rfl
  · exact key 5 bins5_ok rfl
  · exact key 6 bins6_ok rfl
  · exact key 7 bins7_ok rfl
  · exact key 8 bins8_ok rfl
  · exact key 9 bins9_ok rfl
  · exact key 10 bins10_ok rfl
  · exact key 11 bins11_ok rfl
  · exact key 12 bins12_ok rfl
  · exact key 13 bins13_ok rfl
  · exact key 14 bins14_ok rfl
  · exact key 15 bins15_ok rfl

/-- Formal values: a block of coefficients for each of two keys. -/
def freeOps : ValOps (Fin 2 → Block) := ⟨fun _ => 0#128, fun a b i => a i ^^^ b i, fun a b i => GF.mul (a i) b, 2⟩

/-- Encode the two keys of bin `b` with formal values and decode the hash value `h`. -/
def formal (b : Nat) (h : Block) : Option (Fin 2 → Block) :=
  (mkDividers cfg8.w cfg8.s).bind fun dvs =>
    (solveBin freeOps cfg8 zeroNodes none (fun _ _ => 0#128)
      [(hashAt (2 * b), ![MatInv.oneBlock, 0#128]), (hashAt (2 * b + 1), ![0#128, MatInv.oneBlock])]).bind fun y => decode1 freeOps (cfg8.cfg 0) dvs y h

/-- Key 71 decodes to the value of one of the two keys of its bin. -/
theorem formal71 : binOf 128 hash71 = 2 ∧ formal 2 hash71 = some ![0#128, MatInv.oneBlock] := by decide +kernel

/-- Key 35 decodes to zero. -/
theorem formal35 : binOf 128 hash35 = 74 ∧ formal 74 hash35 = some ![0#128, 0#128] := by decide +kernel

end Kunlun.RrPke
