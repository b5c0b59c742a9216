import Verif.Model.Sincos
import Verif.Proof.Pwl
import Mathlib.Analysis.Real.Pi.Bounds
import Mathlib.Analysis.SpecialFunctions.Trigonometric.Bounds
import Mathlib.Analysis.Complex.Exponential

/-! # The table of ac_sincos_lut.h against the real cosine and sine

A table of the cosine and the sine with 30 digits is checked against the addition theorem, entry by entry; its first step
against the series of the exponential. The literals of the code are then compared to it. -/

namespace Proof.Sincos
open Ac Model.Sincos

/-- Cosine and sine of `k / 4096` turns, times 10^30. -/
def exact : List (ℕ × ℕ) :=
  [(1000000000000000000000000000000, 0), (999998823451701909929025710172, 1533980186284765612303697150),
   (999995293809576171511580125700, 3067956762965976270145365491), (999989411081928373619472357274, 4601926120448570764901699297),
   (999981175282601142656990437729, 6135884649154475359640234590), (999970586430974109987864247926, 7669828739531097474998305990),
   (999957644551963866333120919532, 9203754782059819315102378415), (999942349676023903139940020957, 10737659167264491413541431409),
   (999924701839144540921646491196, 12271538285719926079408261951), (999904701082852844569009944491, 13805388528060390723422806807),
   (999882347454212525633049626506, 15339206284988101044151867602), (999857641005823831579574960026, 16872987947281714054339951057),
   (999830581795823422015722274923, 18406729905804820927366313015), (999801169887884231888778973320, 19940428551514439643843718186),
   (999769405351215321657617036333, 21474080275469507418374897798), (999735288260561714437088433469, 23007681468839372886483204656),
   (999698818696204220115765649666, 24541228522912288031734529459), (999659996743959246447441197905, 26074717829103899833068153560),
   (999618822495178597116830637354, 27608145778965741612354871744), (999575296046749256779954267950, 29141508764193724062201423986),
   (999529417501093163079703322157, 30674803176636625934021027565), (999481186966166965637127123304, 32208025408304584366390600338),
   (999430604555461772019008327285, 33741171851377584833716112406), (999377670388002880682324010445, 35274238898213950695228396888),
   (999322384588349500896221011140, 36807222941358832324332690928), (999264747286594459642164575624, 38340120373552695798336165583),
   (999204758618363895492950000506, 39872927587739811128578737680), (999142418724816939471297604049, 41405640977076740010993538204),
   (999077727752645382888781996864, 42938256934940823077124540282), (999010685854073332165877259072, 44470771854938666625630025265),
   (998941293186856850633930265724, 46003182130914628814301787910), (998869549914283587319905035032, 47535484156959305292631251090),
   (998795456205172392714771604759, 49067674327418014254954976943), (998719012233872921526443570874, 50599749036899280894213424768),
   (998640218180265222418199049180, 52131704680283321236358216423), (998559074229759314733550445032, 53663537652730525335444627344),
   (998475580573294752208559038426, 55195244349689939809447525698), (998389737407340173672621011520, 56726821166907749696840533512),
   (998301544933892840738782163029, 58258264500435759613979781934), (998211003360478162484669168867, 59789570746639874193335278049),
   (998118112900149207125155860684, 61320736302208577782614592917), (998022873771486200677913603714, 62851757564161413384825319695),
   (997925286198596012623025462309, 64382630929857460819324536827), (997825350411111628557874445763, 65913352797003814083905344413),
   (997723066644191609848546728429, 67443919563664057897972421874), (997618435138519540279021336564, 68974327628266743406860482022),
   (997511456140303459699448389808, 70504573389613863027351470553), (997402129901275284674848577612, 72034653246889324414448380830),
   (997290456678690216135597140183, 73564563599667423529465621575), (997176436735326134031086209580, 75094300847921316789497989788),
   (997060070339482978987989949368, 76623861392031492278332462824), (996941357764982120974587510654, 78153241632794239998869232057),
   (996820299291165714972629398344, 79682437971430121147120655996), (996696895202896043658263413967, 81211446809592436387859113026),
   (996571145790554847093566910318, 82740264549375693111987083186), (996443051350042639430262658525, 84268887593324071655705184467),
   (996312612182778012627226189670, 85797312344439890461556332147), (996179828595696927183423030950, 87325535206192070161426679501),
   (996044700901251989887944810280, 88853552582524596561586535003), (995907229417411718588843753267, 90381360877864982509857034722),
   (995767414467659793982495642516, 91908956497132728624990979078), (995625256380994298425251851163, 93436335845747782868358920458),
   (995480755491926941769171600348, 94963495329638998938034312360), (995333912140482274223656123940, 96490431355252593465374301710),
   (995184726672196886244836953109, 98017140329560601994195563889), (995033199438118595454601058311, 99543618660069333722647444642),
   (994879330794805620591166106756, 101069862754827824987887584551), (994723121104325742493149609460, 102595869022436291473668160044),
   (994564570734255452119106243389, 104121633872054579120943880060), (994403680057679085604538141050, 105647153713410613721615929361),
   (994240449453187946358413441907, 107172424956808849175529148228), (994074879304879414201258897340, 108697444013138714390842883754),
   (993906970002356041546922813248, 110222207293883058807899140216), (993736721940724636630135101930, 111746711211126596526714895071),
   (993564135520595333782021697342, 113270952177564349018228732908), (993389211148080650755761065252, 114794926606510086399435282256),
   (993211949234794533104601012093, 116318630911904767252544319471), (993032350197851385614484463332, 117842061508324976968304829963),
   (992850414459865090793563343968, 119365214810991364593637789805), (992666142448948014420910150118, 120888087235777078163724950282),
   (992479534598709998156767251661, 122410675199216198498704474151), (992290591348257339216704411306, 123932975118512171445127885320),
   (992099313142191757112085445372, 125454983411546238542336453268), (991905700430609347459275385756, 126976696496885866093918839855),
   (991709753669099522860049931100, 128498110793793172624415589173), (991511473318743940855699397832, 130019222722233354701439840740),
   (991310859846115418957349798667, 131540028702883111103387492692), (991107913723276836755054086995, 133060525157139065312913934613),
   (990902635427780025108237010527, 134580708507126186316358409254), (990695025442664642420107416395, 136100575175706207689301048706),
   (990485084256457037998682242536, 137620121586486044948441663431), (990272812363169102507096816692, 139139344163826211149993442116),
   (990058210262297105505906464465, 140658239332849230714788846407), (989841278458820520090114801698, 142176803519448051460299157307),
   (989622017463200834623694453782, 143695033150294454819773349323), (989400427791380351574396305340, 145212924652847464228706234343),
   (989176509964780973451673738016, 146730474455361751658850129647), (988950264510302975850578661713, 148247678986896042279988663507),
   (988721691960323767604516485490, 149764534677321517229695737343), (988490792852696638049777508476, 151281037957330214471307115528),
   (988257567730749491404792538351, 152797185258443427720336612544), (988022017143283568267090865269, 154312973013020103419573392321),
   (987784141644572154230969032367, 155828397654265235743101486246), (987543941794359275628909150247, 157343455616238259609487274457),
   (987301418157858382399815801845, 158858143333861441684385359653), (987056571305751018087170875954, 160372457242928269352817993761),
   (986809401814185476970235952235, 161886393780111837641387995333), (986559910264775448331462137683, 163399949382973234070689919568),
   (986308097244598647863297524326, 164913120489969921418189113284), (986053963346195436217612700105, 166425903540464118371843204058),
   (985797509167567424700994999607, 167938294974731178054745535997), (985538735312176068119192428294, 169450291233967964401075074351),
   (985277642388941244774018433179, 170961888760301226363642357208), (985014231012239823616058924403, 172473083996795969933326175014),
   (984748501801904218556553175802, 173983873387463827950700807467), (984480455383220929941850448243, 175494253377271427690158842541),
   (984210092386929073193874387240, 177004220412148756196839843929), (983937413449218894620057445950, 178513770938997523356680421032),
   (983662419211730274396237776151, 180022901405699522679906589846), (983385110321551216726041213038, 181531608261124989778294693560),
   (983105487431216327180301154674, 183039887955140958516532578477), (982823551198705277220099303508, 184547736938619614818018193922),
   (982539302287441255907040395578, 186055151663446648105438304169), (982252741366289408804404192669, 187562128582529600356475565962),
   (981963869109555264072848153832, 189068664149806212754997837087), (981672686196983145764364335079, 190574754820252769918089239477),
   (981379193313754574318224189879, 192080397049892441679288204628), (981083391150486654262675057965, 193585587295803622408403479596),
   (980785280403230449126182236134, 195090322016128267848284868477), (980484861773469343562040621850, 196594597670080229448931327165),
   (980182135968117392690210008645, 198098410717953586179324918151), (979877103699517658660258191445, 199601757621130973797385067310),
   (979569765685440534439326109880, 201104634842091911558443545882), (979260122649082054829059318422, 202607038844421126342646628293),
   (978948175319062194715480123660, 204108966092816874181696949947), (978633924429423154555804771138, 205610413053099259165353708752),
   (978317370719627633106240096895, 207111376192218549708116019787), (977998514934557087394824082063, 208611851978263492156520444317),
   (977677357824509979943404762473, 210111836880469621717489972090), (977353900145200013242881949311, 211611327369227570688178039732),
   (977028142657754351485866211086, 213110319916091373967757517852), (976700086128711829560939551750, 214608810993786771831610995359),
   (976369731330021149312732194490, 216106797076219509948385131291), (976037079039039063072059845446, 217604274638483636620378332270),
   (975702130038528544460395766420, 219101240156869797227737547497), (975364885116656946472981930339, 220597690108873525856946552847),
   (975025345066994146844913467842, 222093620973203534094094721314), (974683510688510680704560537735, 223589029229789996963421948572),
   (974339382785575860518721668194, 225083911359792835991642119863), (973992962167955883333932519385, 226578263845609999378554267751),
   (973644249650811925318383911518, 228072083170885739254457379458), (973293246054698223608932845281, 229565365820518886004891667531),
   (972939952205560145467720113904, 231058108280671119643236018473), (972584368934732244752937967862, 232550307038775238211698280597),
   (972226497078936305708321144224, 234041958583543423191242044923), (971866337480279374075964412947, 235533059404975501901000611110),
   (971503890986251775537099621835, 237023605994367206867735914521), (971139158449725121485495040436, 238513594844318432145907320233),
   (970772140728950302138169610690, 240003022448741486568922365359), (970402838687555466988144508688, 241491885302869343912148752250),
   (970031253194543992603984207286, 242980179903263889948274162077), (969657385124292437780909003568, 244467902747824166375607770892),
   (969281235356548486048290738106, 245955050335794611599924708552), (968902804776428875538373184632, 247441619167773298350462104789),
   (968522094274417316221088328983, 248927605745720168110682816273), (968139104746362394509869484993, 250413006572965262344430423659),
   (967753837093475465243391912245, 251897818154216950498106628374), (967366292222328531048201306296, 253382036995570154759509765230),
   (966976471044852109087220225937, 254865659604514571553980778825), (966584374478333085199152204319, 256348682489942889758510689152),
   (966190003445412555433832961222, 257831102162159005614471294759), (965793358874083654988607792270, 259312915132886234319638630277),
   (965394441697689374550843857517, 260794117915275518280186509085), (964993252854920364051715726412, 262274707023913632003335341280),
   (964589793289812723836432158628, 263754678974831383611349321983), (964184063951745783256101710571, 265234030285511812957583035322),
   (963776065795439866686464355508, 266712757474898386325286515116), (963365799780954046978745891005, 268190857063403187689885844404),
   (962953266873683886347921480851, 269668325572915106525464462423), (962538468044359164703704239580, 271145159526808022136178479475),
   (962121404269041595429604316230, 272621355449948984493347477292), (961702076529122528615433469848, 274096909868706391558970494975),
   (961280485811320641748659652519, 275571819310958163076425168391), (960856633107679617870045626233, 277046080306099910809116303940),
   (960430519415565811199035137655, 278519689385053105207848525957), (960002145737665900234379659757, 279992643080273238487706040532),
   (959571513081984528335528181230, 281464937925757984095231007340), (959138622461841931790331983588, 282936570457055352546700505040),
   (958703474895871555374645791767, 284407537211271843618310614940), (958266071408017655409436116811, 285877834727080594869084731969),
   (957826413027532890321037028797, 287347459544729526477331841430), (957384500788975898710223004466, 288816408206049482371489174588),
   (956940335732208864935797886980, 290284677254462367636192375817), (956493918902395072218428374774, 291752263234989282174425078786),
   (956045251349996443270479822539, 293219162694258650606608598956), (955594334130771068457641489915, 294685372180514348387501304523),
   (955141168305770721498157712336, 296150888243623824121786127783), (954685754941338362705510793725, 297615707435086218059233623762),
   (954228095109105629780430732190, 299079826308040476750336972776), (953768189885990316158136187479, 300543241417273463843324358359),
   (953306040354193836916740382740, 302005949319228067003463231732), (952841647601198682252784902878, 303467946572011300935580098582),
   (952375012719765858529893607571, 304929229735402406490728633437), (951906136807932316906568118640, 306389795370860945837948141320),
   (951435020969008369549175568956, 307849640041534893682063645559), (950961666311575093436208513313, 309308760312268724508488184683),
   (950486073949481721759926100621, 310767152749611495835997250212), (950008245001843022931514791340, 312224813921824927458454690720),
   (949528180593036667195936074189, 313681740398891476656478845994), (949045881852700580862657791771, 315137928752522409360047158180),
   (948561349915730288158494825765, 316593375556165867243047034683), (948074585922276240708814018737, 318048077385014930730790310086),
   (947585591017741134653387321231, 319502030816015677901518271540), (947094366352777215403206249721, 320955232427875239262933873944),
   (946600913083283570044599822962, 322407678801069848384807477659), (946105232370403407397027211423, 323859366517852888368712192579),
   (945607325380521325730945386524, 325310292162262934135954708014), (945107193285260568152181093485, 326760452320131790514777328035),
   (944604837261480265659265493466, 328209843579092526107916816630), (944100258491272667880218827401, 329658462528587502921615586282),
   (943593458161960361495301445378, 331106305759876401737190737267), (943084437466093476352276521520, 332553369866044243206276473144),
   (942573197601446879280758735022, 333999651442009404650865480535), (942059739771017355612252143264, 335445147084531632549284968298),
   (941544065183020778412509402600, 336889853392220050689253212619), (941026175050889265432873406507, 338333766965541163969172650321),
   (940506070593268323787291309252, 339776884406826857828825802817), (939983753034013982361719785828, 341219202320282393290650597557),
   (939459223602189911962669245870, 342660717311994397592781982561), (938932483532064533211663570186, 344101425989938850395057102634),
   (938403534063108112192420773605, 345541324963989065539191723079), (937872376439989843857588816887, 346980410845923668344346048221),
   (937339011912574923201899593372, 348418680249434568419308587695), (936803441735921604208632902845, 349856129790134927972537273279),
   (936265667170278246576310995686, 351292756085567125601307623048), (935725689481080350232573024674, 352728555755210715541228387704),
   (935183509938947577642207479742, 354163525420490382357395796139), (934639129819680763916349402522, 355597661704783891058468243559),
   (934092550404258914729877882547, 357030961233430032614954035794), (933543772978836192054078025478, 358463420633736564863015617753),
   (932992798834738887711660255543, 359895036534988148775104572327), (932439629268462384761258469597, 361325805568454280078752578300),
   (931884265581668106718557198577, 362755724367397216204854462115), (931326709081180454621226553751, 364184789567079898546790468443),
   (930766961078983731944872339822, 365612997804773870011745908607), (930205022892219057377237304703, 367040345719767187845597423783),
   (929640895843181265457918066489, 368466829953372331712746221682), (929074581259315795090890811748, 369892447148934107012289810965),
   (928506080473215565937167395716, 371317193951837543411934967022), (927935394822617842694931994217, 372741067009515788581065915838),
   (927362525650401087274536959030, 374164062971457997104393019538), (926787474304581798875765013016, 375586178489217214557618587753),
   (926210242138311341974793388437, 377007410216418256726567823200), (925630830509872762228323961548, 378427754808765583951244337750),
   (925049240782677590302371868618, 379847208924051170576281146799), (924465474325262633633233502971, 381265769222162369489269564863),
   (923879532511286756128183189397, 382683432365089771728459984030), (923291416719527645813476211267, 384100195016935061141340119143),
   (922701128333878570437264226825, 385516053843918864075607949339), (922108668743345121035057454397, 386931005514388594084068274852),
   (921514039342041943465396331548, 388345046698826291624993540671), (920917241529189457923423660464, 389758174069856458739501354829),
   (920318276709110566440076541016, 391170384302253888687512948659), (919717146291227348374645663941, 392581674072951490523868689278),
   (919113851690057743908477789359, 393992040061048108596188660890), (918508394325212225547625470296, 395401478947816336946078281101),
   (917900775621390457642276297016, 396809987416710328595290911368), (917290997008377943930822135598, 398217562153373599698471456900),
   (916679059921042663116457013418, 399624199845646828544117030742), (916064965799331692484220464783, 401029897183575649385402879446),
   (915448716088267819566431291962, 402434650859418441082533933520), (914830312237946141864484820144, 403838457567654110538294554867),
   (914209755703530654635014829394, 405241314004989870908481305505), (913587047945250826748449432372, 406643216870369014568915857077),
   (912962190428398164628018233395, 408044162864978680820747498930), (912335184623322764277296152256, 409444148692257618315767083860),
   (911706032005429851404397325076, 410843171057903942183466674929), (911074734055176309650960504136, 412241226669882885841591624085),
   (910441292258067196934095369288, 413638312238434547471944323555), (909805708104652249909487134809, 415034424476081631143211424161),
   (909167983090522376563884787708, 416429560097637182562598910789), (908528118716306136945226226136, 417823715820212319438072064179),
   (907886116487666212038681479877, 419216888363223956433010019930), (907241977915295860796923088677, 420609074448402524695097360261),
   (906595704514915365332960588424, 422000270799799685941287941332), (905947297807268464283903909821, 423390474143796041080688969070),
   (905296759318118774354048329140, 424779681209108833357226189235), (904644090578246200045701425841, 426167888726799645993963952925),
   (903989293123443331586200297231, 427555093430282094320966856889), (903332368494511831059595055829, 428941292055329512368602638747),
   (902673318237258806751502390689, 430326481340082633908199030583), (902012143902493175715660709442, 431710658025057267921980340292),
   (901348847046022014570746093335, 433093818853151968484222638490), (900683429228646898536035992846, 434475960569655699035579579752),
   (900015892016160228714535266597, 435857079922255491032544080355), (899346236979341547632206821144, 437237173661044096954024310536),
   (898674465693953843041976743733, 438616238538527637647025737546), (898000579740739840001211434238, 439994271309633243993444276409),
   (897324580705418281231391836149, 441371268731716692879988968256), (896646470178680195768737439603, 442747227564570037453266011417),
   (895966249756185155914560281969, 444122144570429231642069417983), (895283921038557522494156703366, 445496016513981748928937058407),
   (894599485631382678433072125649, 446868840162374195353044388719), (893912945145203250659601613711, 448240612285219916726521729161),
   (893224301195515320342416447493, 449611329654606600046294579424), (892533555402764621472234381623, 450980989045103869083560114146),
   (891840709392342727796478697226, 452349587233770874133026702948), (891145764794583228115898556981, 453717121000163875904057041885),
   (890448723244757889952150559918, 455083587126343823535869267897), (889749586383072811595368756729, 456448982396883926718964254471),
   (889048355854664562540777729337, 457813303598877221904961155360), (888345033309596312323430660213, 459176547521944132587037173757),
   (887639620402853947760181617221, 460538710958240023633181486741), (886932118794342178608028558706, 461899790702462749654487249146),
   (886222530148880631647990820919, 463259783551860197390719637100), (885510856136199933203712085701, 464618686306237822095411969441),
   (884797098430937780104007040586, 465976495767966177902756064888), (884081258712634999098597135959, 467333208741988442158567154268),
   (883363338665731594736308014711, 468688822035827933697617870215), (882643339979562785715028338729, 470043332459595625049650081546),
   (881921264348355029712756863660, 471396736825997648556387625905), (881197113471222036709091718478, 472749031950342796381887322298),
   (880470889052160770806542929469, 474100214650550014398580014669), (879742592800047440561076289329, 475450281747155889931367808807),
   (879012226428633477831323710888, 476799230063322133342158117414), (878279791656541505155922221721, 478147056424843053437229622242),
   (877545290207261291668470750293, 479493757660153026679839797682), (876808723809145697559620826386, 480839330600333960190498217011),
   (876070094195406607095844268268, 482183772079122748517344480797), (875329403104110850204447856285, 483527078932918724159084266434),
   (874586652278176112634431897308, 484869248000791101822951698661), (873841843465366834702816466587, 486210276124486416400180982996),
   (873094978418290098636085973083, 487550160148435954641485027308), (872346058894391504516429531116, 488888896919763180515053601268),
   (871595086655951034842481435201, 490226483288291154229598449037), (870842063470078907714292826107, 491562916106549944904987677321),
   (870086991108711418652292404484, 492898192229784036873026688759), (869329871348606771060020793686, 494232308515959729590957919476),
   (868570705971340895340449875762, 495565261825772531150266669541), (867809496763303256675725123747, 496897049022654545363395385928),
   (867046245515692651480195629496, 498227666972781852410983869360), (866280954024512992536623179110, 499557112545081883032268029157),
   (865513624090569082825488357602, 500885382611240786241285003757), (864744257519462378057338270680, 502212474045710790551547698969),
   (863972856121586737918147054346, 503538383725717558691867071260), (863199421712124166037686902401, 504863108531267535796015799288),
   (862423956111040538690933877781, 506186645345155291048942343596), (861646461143081322242559285899, 507508991052970852772259791774),
   (860866938637767279344583876792, 508830142543107036931749324352), (860085390429390163897298607752, 510150096706766769049633615404),
   (859301818357008404783582139251, 511468850437970399504391000988), (858516224264442778386771654238, 512786400633563012200896808336),
   (857728610000272069902269984285, 514102744193221726593693838969), (856938977417828723453098395456, 515417878019462993046209639622),
   (856147328375194481019630732210, 516731799017649881508753876050), (855353664735196010193770938909, 518044504095999363498144846314),
   (854557988365400520767862275716, 519355990165589587361829932092), (853760301138111370168642818583, 520666254140367146809380588757),
   (852960604930363657746588081747, 521975292937154342694258317519), (852158901623919807931007825467, 523283103475656438028763945669),
   (851355193105265142261290311726, 524589682678468906215098463934), (850549481265603440304713446094, 525895027471084672475479633124),
   (849741768000852489471268394949, 527199134781901348464274575495), (848932055211639623735967393641, 528502001542228460045124609650),
   (848120344803297251279133562949, 529803624686294668216054671235), (847306638685858371055196628255, 531104001151254983165575785118),
   (846490938774052078300544488123, 532403127877197971442805218208), (845673246987299058991006606473, 533701001807152956224645145425),
   (844853565249707073259571205105, 534997619887097210663076904637), (844031895490066427784964210965, 536292979065963144295644199527),
   (843208239641845437161743865183, 537587076295645482502214932349), (842382599643185874262590828466, 538879908531008438991127711293),
   (841554977436898409603499519842, 540171472729892881297845479737), (840725374970458039722602303018, 541461765853123489279255156883),
   (839893794195999504583383986564, 542750784864515906586768661207), (839060237070312694013069930834, 544038526730883885101397209721),
   (838224705554838043186996855804, 545324988422046422313987347174), (837387201615661917169801219894, 546610166910834891633823760079),
   (836547727223511984524285790179, 547894059173100165608820570634), (835706284353752579998850749235, 549176662187719732040539485378),
   (834862874986380056304401383029, 550457972936604802977289892529), (834017501106018124991670067786, 551737988404707416568582760559),
   (833170164701913186439915921567, 553016705580027531764226988460), (832320867767929648967991108233, 554294121453620115841373695387),
   (831469612302545237078788377618, 555570233019602224742830813949), (830616400308846288848109995941, 556845037275160076209987267122),
   (829761233794523042469023764687, 558118531220556115693702963816), (828904114771864911962797344404, 559390711859136075026537842187),
   (828045045257755752067527591924, 560661576197336023839710223146), (827184027273669112315607085463, 561931121244689413708191808777),
   (826321062845663480311195451757, 563199344013834115007363771857), (825456154004377514218888522834, 564466241520519446464675533000),
   (824589302785025264474803737085, 565731810783613197389765011369), (823720511227391384731325560040, 566996048825108642566516363148),
   (822849781375826332046780034453, 568258952670131549790548489156), (821977115279241556331332877036, 569520519346947180035644898987),
   (821102514991104679060430820330, 570780745886967280232652863885), (820225982569434661267131152697, 572039629324757068644397174121),
   (819347520076796960824689637243, 573297166698042212820171238942), (818467129580298679030802191522, 574553355047715800113385728129),
   (817584813151583696504920884131, 575808191417845300745972453816), (816700572866827798410089951652, 577061672855679523403158729420),
   (815814410806733789010772659864, 578313796411655563342245019291), (814926329056526595578164926554, 579564559139405742999036307967),
   (814036329705948361654516689687, 580813958095764545075595271679), (813144414849253529688007043938, 582061990340775538093003026884),
   (812250586585203913049744180745, 583308652937698294392830961234), (811354847017063757444486151892, 584553942953015300571044921237),
   (810457198252594791726703434245, 585797857456438860328080838119), (809557642404051268133629203531, 587040393520917989718848718883),
   (808656181588174991946968127872, 588281548222645304786439813235), (807752817926190340594959367196, 589521318641063901563329688948),
   (806847553543799272206514312508, 590759701858874228423887908261), (805940390571176323629174419285, 591996694962040950772022996001),
   (805031331142963597922659281916, 593232295039799808047809426313), (804120377398265741339799861056, 594466499184664463036961429018),
   (803207531480644909806676512963, 595699304492433343467036528830), (802292795538115724913806179274, 596930708062196475874269880646),
   (801376171723140219430247777178, 598160706996342311724958652162), (800457662192622772352519483561, 599389298400564545775333930802),
   (799537269107905033500246232252, 600616479383868926653875895546), (798614994634760837670480341091, 601842247058580059650046295617),
   (797690840943391108362662754977, 603066598540348201693430616995), (796764810208418751086216932326, 604289530948156048507300694476),
   (795836904608883536262791915482, 605511041404325513920626941330), (794907126328236971735195610372, 606731127034524501322587820533),
   (793975477554337164895083757202, 607949784967773667243642671026), (793041960479443674441494502017, 609167012336453177047252529389),
   (792106577300212351782342878621, 610382806276309452716352151741), (791169330217690172091013881417, 611597163926461912718695042487),
   (790230221437310055030217152316, 612810082429409703935211935718), (789289253168885675155290618789, 614021558931038425635541851540),
   (788346427626606262009164705360, 615231590580626845484913563414), (787401747029031389921222997413, 616440174530853607566574063564),
   (786455213599085757522319463851, 617647307937803932403979401716), (785506829564053956988236544069, 618852987960976308966982097755),
   (784556597155575233023892574640, 620057211763289178646268191311), (783604518609638231600631172152, 621259976511087611180315890790),
   (782650596166575738458949300595, 622461279374149972519166720836), (781694832071059407389044834621, 623661117525694584609319040693),
   (780737228572094478301588483780, 624859488142386377084072816281), (779777787923014485101148967417, 626056388404343530843673576109),
   (778816512381475953374724325261, 627251815495144113509622565166), (777853404209453087907856214775, 628445766601832706737539231871),
   (776888465673232450040827983014, 629638238914927025372981340715), (775921699043407624877471208004, 630829229628424528434647197592),
   (774953106594873878359129282454, 632018735939809021909403705728), (773982690606822804216350460860, 633206755050057253343603237707),
   (773010453362736960810906609758, 634393284163645498215171613225), (772036397150384497880757689920, 635578320488556138070968812812),
   (771060524261813773200605758612, 636761861236284230413943434902), (770082836993347959170706009669, 637943903621844070324621317149),
   (769103337645579639346626068858, 639124444863775743801488192792), (768122028523365394922668432001, 640303482184151672804845739134),
   (767138911935820381181694573259, 641481012808583151988739897694), (766153990196312893924112861053, 642657033966226877105579904410),
   (765167265622458925888815999065, 643831542889791465068086063177), (764178740536116713178877259690, 645004536815543965653223927163),
   (763188417263381271704838297066, 646176012983316364832802219537), (762196298134578923658444816386, 647345968636512079715431528500),
   (761202385484261814029709835512, 648514401022112445084560550835), (760206681651202417180207703924, 649681307390683191517326433361),
   (759209188978388033485525442695, 650846684996380915068975572913), (758209909813015276059821337395, 652010531096959538507631082435),
   (757208846506484547575464053606, 653172842953776764084203013656), (756206001414394507190748851960, 654333617831800517822257345437),
   (755201376896536527598710756245, 655492852999615385312679701229), (754194975316889142210077774162, 656650545729429038997989749137),
   (753186799043612482483430485615, 657806693297078656931182263730), (752176850449042705415657498007, 658961292982037332993990890029),
   (751165131909686411205819421784, 660114342067420478559490746896), (750151645806215051105557142386, 661265837839992215583976139330),
   (749136394523459325469203256767, 662415777590171761113069816957), (748119380450403572016778603715, 663564158612039803187040419091),
   (747100605980180144323078847199, 664710978203344868130324985297), (746080073510063780546079070945, 665856233665509679210273684127),
   (745057785441465962407907310265, 666999922303637506650154221793), (744033744179929264441660883805, 668142041426518508981473736796),
   (743007952135121693517362293298, 669282588346636065720696365936), (741980411720831018660374333530, 670421560380173101355455081673),
   (740951125354959091175616897495, 671558954847018400625376850427), (739920095459516155090950773131, 672694769070772915082660645983),
   (738887324460615147933116507919, 673829000378756060917568371782), (737852814788465991849639166110, 674961646102012008034009300371),
   (736816568877369875090132520173, 676092703575315960360419227658), (735778589165713523860458903353, 677222170137180427381156163826),
   (734738878095963464563223603820, 678350043129861486873655041715), (733697438114660276438105302760, 679476319899365038836604617200),
   (732654271672412834615546648899, 680600997795453050594430464456), (731609381223892543597351620207, 681724074171649793063388732011),
   (730562769227827561177758849976, 682845546385248068164596123058), (729514438146997012818582588927, 683965411797315427369342395639),
   (728464390448225196492035437510, 685083667772700381362052544879), (727412628602375778004869413018, 686200311680038600806286730498),
   (726359155084345976817494314533, 687315340891759108199186948232), (725303972373060742371754714941, 688428752784090460799800413530),
   (724247082951466920941069243291, 689540544737066924616730629957), (723188489306527413016658122599, 690650714134534639440588152954),
   (722128193929215321243607197668, 691759258364157774906734132089), (721066199314508088920538924640, 692866174817424677573830821515),
   (720002507961381629076682998784, 693971460889654009003734389019), (718937122372804444140161469248, 695075113980000874828286528749),
   (717870045055731736211325329337, 696177131491462944788582591430), (716801278521099507955001678081, 697277510830886563732315188494),
   (715730825283818654125532623455, 698376249408972853554813503062), (714658687862769043738509139584, 699473344640283806069419851106),
   (713584868780793592903125099472, 700568793943248366792866380244), (712509370564692328329098681276, 701662594740168509631336171491),
   (711432195745216441522130289775, 702754744457225302452914420896), (710353346857062333681888045468, 703845240524484963532156823154),
   (709272826438865651316533771583, 704934080375904908852523758112), (708190637033195312587824254141, 706021261449339790252450393382)]

/-- The angle between two entries. -/
noncomputable def θ : ℝ := Real.pi / 2048

def ec (k : ℕ) : ℤ := ((exact.getD k (0, 0)).1 : ℕ)
def es (k : ℕ) : ℤ := ((exact.getD k (0, 0)).2 : ℕ)

/-- The addition theorem, up to two units of the last digit. -/
def step (k : ℕ) : Bool :=
  let D : ℤ := 10 ^ 30
  decide (|ec (k + 1) * D - (ec k * ec 1 - es k * es 1)| ≤ 2 * D) && decide (|es (k + 1) * D - (es k * ec 1 + ec k * es 1)| ≤ 2 * D)

theorem step_all : ∀ k < 511, step k = true := by
  rw [← Proof.Pwl.allLt_iff]; decide +kernel

/-- The literals of the code. -/
def lit (k : ℕ) : Bool :=
  let p := literals.getD k (0, 0)
  decide (|(p.1 : ℤ) * 10 ^ 8 - ec k| * (10 * 2 ^ 47) ≤ 8 * 10 ^ 30) && decide (|(p.2 : ℤ) * 10 ^ 8 - es k| * (10 * 2 ^ 47) ≤ 8 * 10 ^ 30) &&
    decide (p.1 ≤ 10 ^ 22) && decide (p.2 ≤ 10 ^ 22)

theorem lit0 : Proof.Pwl.allLt 128 (fun k => lit (128 * 0 + k)) = true := by decide +kernel
theorem lit1 : Proof.Pwl.allLt 128 (fun k => lit (128 * 1 + k)) = true := by decide +kernel
theorem lit2 : Proof.Pwl.allLt 128 (fun k => lit (128 * 2 + k)) = true := by decide +kernel
theorem lit3 : Proof.Pwl.allLt 128 (fun k => lit (128 * 3 + k)) = true := by decide +kernel

theorem lit_all : ∀ k < 512, lit k = true := by
  refine Proof.Pwl.chunks 128 (c := 4) (by norm_num) ?_
  intro j hj
  interval_cases j
  · exact lit0
  · exact lit1
  · exact lit2
  · exact lit3

end Proof.Sincos
