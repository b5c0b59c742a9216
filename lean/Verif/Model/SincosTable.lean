import Mathlib.Data.Nat.Notation

/-! # The table of ac_sincos_lut.h -/

namespace Model.Sincos

/-- The literals of `sincos`, cosine and sine, times 10^22. ac_sincos_lut.h:142-653 -/
def literals : List (ℕ × ℕ) :=
  [(10000000000000000000000, 0), (9999988234517018792502, 15339801862847655001),
   (9999952938095761911796, 30679567629659761432), (9999894110819284032132, 46019261204485704952),
   (9999811752826011090889, 61358846491544752691), (9999705864309741398799, 76698287395310970130),
   (9999576445519638978610, 92037547820598194365), (9999423496760239116199, 107376591672644905451),
   (9999247018391445029906, 122715382857199253874), (9999047010828528980753, 138053885280603905877),
   (9998823474542125611109, 153392062849881001541), (9998576410058238606027, 168729879472817104191),
   (9998305817958234031906, 184067299058048201854), (9998011698878842556937, 199404285515144413798),
   (9997694053512152789764, 214740802754695113419), (9997352882605616830602, 230076814688393756214),
   (9996988186962042499673, 245412285229122950625), (9996599967439592226981, 260747178291039077846),
   (9996188224951786382988, 276081457789657501445), (9995752960467492176377, 291415087641937360641),
   (9995294175010931425618, 306748031766366398287), (9994811869661669456733, 322080254083045997016),
   (9994306045554617323745, 337411718513776007211), (9993776703880028478011, 352742388982139679077),
   (9993223845883495437548, 368072229413588525304), (9992647472865944235920, 383401203735527149052),
   (9992047586183638863133, 398729275877398314787), (9991424187248169053177, 414056409770767672174),
   (9990777277526453614698, 429382569349408479975), (9990106858540733769658, 444707718549386954443),
   (9989412931868568712446, 460031821309146576882), (9988695499142835609874, 475354841569593372652),
   (9987954562051724050065, 490676743274180496290), (9987190122338729381113, 505997490368993163568),
   (9986402181802652711085, 521317046802833583552), (9985590742297593136456, 536635376527305613115),
   (9984755805732947742115, 551952443496899758379), (9983897374073401609351, 567268211669077898618),
   (9983015449338928926082, 582582645004358010143), (9982110033604781884620, 597895707466399167762),
   (9981181129001491791897, 613207363022086268667), (9980228737714862408126, 628517575641614617554),
   (9979252861985959954794, 643826309298575066853), (9978253504111116445330, 659133527970038463062),
   (9977230666441916362430, 674439195636640925757), (9976184351385195547834, 689743276282667738819),
   (9975114561403034540987, 705045733896138837604), (9974021299012753027924, 720346532468893463452),
   (9972904566786902069708, 735645635996674401857), (9971764367353261881988, 750943008479213192086),
   (9970600703394829622539, 766238613920314920458), (9969413577649821611715, 781532416327942319745),
   (9968202992911656679098, 796824379714301117561), (9966968952028960604395, 812114468095924274538),
   (9965711457905548353864, 827402645493756777606), (9964430513500426300766, 842688875933240433280),
   (9963126121827780012907, 857973123444398660942), (9961798285956969811750, 873255352061920314677),
   (9960447009012519670179, 888535525825245586784), (9959072294174117212506, 903813608778649413278),
   (9957674144676598171344, 919089564971326822285), (9956252563809943056938, 934363358457477310992),
   (9954807554919269385607, 949634953296389361377), (9953339121404822797956, 964904313552525233488),
   (9951847266721969287318, 980171403295605342398), (9950331994381186317966, 995436186600692496373),
   (9948793307948056163781, 1010698627548277384047), (9947231211043257026461, 1025958690224361979926),
   (9945645707342554153740, 1041216338720544892782), (9944036800576790957606, 1056471537134105187494),
   (9942404494531879022290, 1071724249568087455886), (9940748793048794773597, 1086974440131386054897),
   (9939069700023560605118, 1102222072938829483535), (9937367219407245988450, 1117467112111264759822),
   (9935641355205953040297, 1132709521775642214081), (9933892111480806530466, 1147949266065099588330),
   (9932119492347945000077, 1163186309119046274452), (9930323501978514100230, 1178420615083248385035),
   (9928504144598651048881, 1193652148109912158880), (9926661424489480189948, 1208880872357769309389),
   (9924795345987099670637, 1224106751992160430076), (9922905913482573669882, 1239329751185120065404),
   (9920993131421917965440, 1254549834115460948958), (9919057004306093272561, 1269766964968856992613),
   (9917097536690995251973, 1284981107937930022711), (9915114733187440076989, 1300192227222331797787),
   (9913108598461154441495, 1315400287028829495739), (9911079137232768898613, 1330605251571388980558),
   (9909026354277800097137, 1345807085071260011944), (9906950254426646340633, 1361005751757060067142),
   (9904850842564570934101, 1376201215864858440341), (9902728123631691081741, 1391393441638260064508),
   (9900582102622971225614, 1406582393328490165896), (9898412784588205282077, 1421768035194478363437),
   (9896220174632008870219, 1436950331502942490580), (9894004277913803768740, 1452129246528472417133),
   (9891765099647810144390, 1467304744553615258873), (9889502645103029898621, 1482476789868958089169),
   (9887216919603237785807, 1497645346773212871039), (9884907928526966980343, 1512810379573299723877),
   (9882575677307495753965, 1527971852584431855515), (9880220171432836373526, 1543129730130198551397),
   (9877841416445721778317, 1558283976542649829078), (9875439417943593367610, 1573434556162379982513),
   (9873014181578584347321, 1588581433338611681449), (9870565713057510848216, 1603724572429280070818),
   (9868094018141855272575, 1618863937801115482351), (9865599102647755191953, 1633999493829729476868),
   (9863080972445986693842, 1649131204899696445665), (9860539633461954389659, 1664259035404638265021),
   (9857975091675674761404, 1679382949747308673150), (9855387353121761728758, 1694502912339676536924),
   (9852776423889413326407, 1709618887603009118603), (9850142310122398381367, 1724730839967956452785),
   (9847485018019043190307, 1739838733874635168242), (9844804553832210425313, 1754942533772710921980),
   (9842100923869291362323, 1770042204121484163970), (9839374134492189227785, 1785137709389972016094),
   (9836624192117303655536, 1800229014056991816428), (9833851103215512923228, 1815316082611246328860),
   (9831054874312163960326, 1830398879551406177146), (9828235511987053474314, 1845477369386192556533),
   (9825393022874413517798, 1860551516634462998478), (9822527413662894835156, 1875621285825292416938),
   (9819638691095553539867, 1890686641498058317978), (9816726861969832240717, 1905747548202524066507),
   (9813791933137546719124, 1920803970498920765220), (9810833911504867055342, 1935855872958032464215),
   (9807852804032305416015, 1950903220161278872613), (9804848617734693849712, 1965945976700798347725),
   (9801821359681174294920, 1980984107179531994447), (9798771036995177485807, 1996017576211305821765),
   (9795697656854406298876, 2011046348420915119704), (9792601226490821320070, 2026070388444207170942),
   (9789481753190623081196, 2041089660928164517539), (9786339244294232075916, 2056104130530988227665),
   (9783173707196277657516, 2071113761922181162323), (9779985149345571393553, 2086118519782630686965),
   (9776773578245100404516, 2101118368804691938223), (9773539001452000718473, 2116113273692271368187),
   (9770281426577543948397, 2131103199160909178467), (9767000861287119528598, 2146088109937863142029),
   (9763697313300212510256, 2161067970762190482148), (9760370790390391348978, 2176042746384831694240),
   (9757021300385286810553, 2191012401568693257481), (9753648851166570876714, 2205976901088730623979),
   (9750253450669942312246, 2220936209732030652830), (9746835106885107791186, 2235890292297895154405),
   (9743393827855759692369, 2250839113597923601962), (9739929621679559446079, 2265782638456095010593),
   (9736442496508120880705, 2280720831708852314179), (9732932460546983577387, 2295653658205183689223),
   (9729399522055602878012, 2310581082806706099131), (9725843689347323239858, 2325503070387747173164),
   (9722264970789363802695, 2340419585835429028275), (9718663374802795074103, 2355330594049749870500),
   (9715038909862518945459, 2370236059943666706573), (9711391584497252038588, 2385135948443178888212),
   (9707721407289504611526, 2400030224487409435952), (9704028386875556133617, 2414918853028688028317),
   (9700312531945440852610, 2429801799032633435882), (9696573851242925590199, 2444679027478236232884),
   (9692812353565486427343, 2459550503357940676175), (9689028047764289830468, 2474416191677727416831),
   (9685220942744174887906, 2489276057457195934219), (9681391047463625554315, 2504130065729646692496),
   (9677538370934756217778, 2518978181542163574669), (9673662922223287274903, 2533820369955695483988),
   (9669764710448522926356, 2548656596045139610673), (9665843744783332303072, 2563486824899423033308),
   (9661900034454127261796, 2578311021621584320229), (9657933588740837960174, 2593129151328856241143),
   (9653944416976895093185, 2607941179152749033854), (9649932528549205468238, 2622747070239130340319),
   (9645897932898128690482, 2637546789748307918266), (9641840639517459399244, 2652340302855111797697),
   (9637760657954400622671, 2667127574748977547614), (9633657997809542683498, 2681908570634025656965),
   (9629532668736840994583, 2696683255729144801371), (9625384680443593854449, 2711451595268073999634),
   (9621214042690418022374, 2726213554499483660010), (9617020765291227624161, 2740969098687057181607),
   (9612804858113208616999, 2755718193109575331334), (9608566331076797695232, 2770460803060992294178),
   (9604305194155660085897, 2785196893850524491043), (9600021457376660682925, 2799926430802725518809),
   (9595715130819847393795, 2814649379257573302837), (9591386224618421163512, 2829365704570546702357),
   (9587034748958717100820, 2844075372112711552752), (9582660714080178943064, 2858778347270798936286),
   (9578264130275331300624, 2873474595447288448824), (9573845007889760783115, 2888164082060487580783),
   (9569403357322090464265, 2902846772544616649192), (9564939189023953236557, 2917522632349885958192),
   (9560452513499966276100, 2932191626942579620874), (9555943341307713279065, 2946853721805136050449),
   (9551411683057708934541, 2961508882436231226976), (9546857549413385601866, 2976157074350854747635),
   (9542280951091058893709, 2990798263080397534353), (9537681898859905471610, 3005432414172727328960),
   (9533060403541940841521, 3020059493192273070150), (9528416476011989377781, 3034679465720105384641),
   (9523750127197661008438, 3049292297354016523236), (9519061368079325680114, 3063897953708601962219),
   (9514350209690085602432, 3078496400415341449630), (9509616663115753043556, 3093087603122679496437),
   (9504860739494819243944, 3107671527496107533040), (9500082450018432211891, 3122248139218241624882),
   (9495281805930368967950, 3136817403988906849399), (9490458818527008899579, 3151379287525216121857),
   (9485613499157306005571, 3165933755561650686516), (9480745859222765581364, 3180480773850141162917),
   (9475855910177414243023, 3195020308160148592158), (9470943663527774392108, 3209552324278744372954),
   (9466009130832838680547, 3224076788010690197694), (9461052323704036703944, 3238593665178520764059),
   (9456073253805216127788, 3253102921622621490627), (9451071932852608270537, 3267604523201309563163),
   (9446048372614805899161, 3282098435790917201338), (9441002584912729922451, 3296584625285866598787),
   (9435934581619606076330, 3311063057598755965394), (9430844374660937168287, 3325533698660433912231),
   (9425731976014471991121, 3339996514420085493846), (9420597397710176457153, 3354451470845307703428),
   (9415440651830210283535, 3368898533922192184420), (9410261750508895906009, 3383337669655402946134),
   (9405060705932686282438, 3397768844068260185587), (9399837530340142688345, 3412192023202815227556),
   (9394592236021902520449, 3426607173119935456640), (9389324835320648210413, 3441014259899379812424),
   (9384035340631083910168, 3455413249639882056208), (9378723764399902185218, 3469804108459227931505),
   (9373390119125752928397, 3484186802494336765434), (9368034417359218934962, 3498561297901340294558),
   (9362656671702785926570, 3512927560855662045824), (9357256894810807024143, 3527285557552098382850),
   (9351835099389479433185, 3541635254204894556196), (9346391298196811137089, 3555976617047829635432),
   (9340925504042593141563, 3570309612334291449187), (9335437729788365057715, 3584634206337356521210),
   (9329927988347392897595, 3598950365349872226872), (9324396292684626885716, 3613258055684533398555),
   (9318842655816684805714, 3627557243673962816821), (9313267090811808701645, 3641847895670789481137),
   (9307669610789840453080, 3656129978047729101043), (9302050228922194019532, 3670403457197662366873),
   (9296408958431816582646, 3684668299533713775595), (9290745812593161900850, 3698924471489331566865),
   (9285060804732159223107, 3713171939518365993749), (9279353948226182202674, 3727410670095148148562),
   (9273625256504014480186, 3741640629714570454034), (9267874743045821928078, 3755861784892162713589),
   (9262102421383117123455, 3770074102164172602514), (9256308305098731592508, 3784277548087646159125),
   (9250492407826780283386, 3798472089240502169716), (9244654743252630479944, 3812657692221613769945),
   (9238795325112871825723, 3826834323650887825785), (9232914167195280796818, 3841001950169340428687),
   (9227011283338789615627, 3855160538439178496972), (9221086687433455164609, 3869310055143875826111),
   (9215140393420423459148, 3883450466988253024780), (9209172415291898561307, 3897581740698554675362),
   (9203182767091110383362, 3911703843022528714890), (9197171462912278050439, 3925816740729504705776),
   (9191138516900582144942, 3939920400610470996305), (9185083943252126958967, 3954014789478152991364),
   (9179007756213909408061, 3968099874167093088495), (9172909970083783504080, 3982175621533725617951),
   (9166790599210431489396, 3996241998456457888977), (9160649657993321648419, 4010298971835746240089),
   (9154487160882682772467, 4024346508594173754680), (9148303122379466412184, 4038384575676530752197),
   (9142097557035311350404, 4052413140049888062855), (9135870479452512515905, 4066432168703679739252),
   (9129621904283986566497, 4080441628649776331095), (9123351846233231920991, 4094441486922565376361),
   (9117060320054303224069, 4108431710579028561803), (9110747340551768047590, 4122412266698818328337),
   (9104412922580676914563, 4136383122384334476429), (9098057081046527772017, 4150344244760805212380),
   (9091679830905228243410, 4164295600976360978152), (9085281187163066762835, 4178237158202112166983),
   (9078861164876667055879, 4192168883632228504332), (9072419779152963714708, 4206090744484013987936),
   (9065957045149158899378, 4220002707997985713639), (9059472978072690141360, 4233904741437949370564),
   (9052967593181192595964, 4247796812091076956719), (9046440905782466845864, 4261678887267985049725),
   (9039892931234438933075, 4275550934302809746868), (9033323684945123721590, 4289412920553283825598),
   (9026733182372593811138, 4303264813400815014255), (9020121439024937348705, 4317106580250561487233),
   (9013488470460225832070, 4330938188531508470369), (9006834292286474141775, 4344759605696545401443),
   (9000158920161608344657, 4358570799222543645790), (8993462369793421284925, 4372371736610429771019),
   (8986744656939543718366, 4386162385385264927962), (8980005797407404344312, 4399942713096320900945),
   (8973245807054188727392, 4413712687317155602962), (8966464701786808211281, 4427472275645688570833),
   (8959662497561857730233, 4441221445704280901268), (8952839210385581392160, 4454960165139805750023),
   (8945994856313832510608, 4468688401623730488410), (8939129451452038077619, 4482406122852187202454),
   (8932243011955158795701, 4496113296546054294289), (8925335554027652440467, 4509809890451026981317),
   (8918407093923432782390, 4523495872337696677157), (8911457647945838500547, 4537171210001627041919),
   (8904487232447585443040, 4550835871263426146704), (8897495863830734430522, 4564489823968827519884),
   (8890483558546651288168, 4578133035988760091151), (8883450333095969098096, 4591765475219429237796),
   (8876396204028546010889, 4605387109582388394102), (8869321187943428608236, 4618997907024615101612),
   (8862225301488813045125, 4632597835518589834969), (8855108561362006192041, 4646186863062365945964),
   (8847970984309384556710, 4659764957679649599598), (8840812587126356536515, 4673332087419871938572),
   (8833633386657322450475, 4686888220358266798904), (8826433399795634571205, 4700433324595943984647),
   (8819212643483557156898, 4713967368259964207944), (8811971134712227593511, 4727490319503415694413),
   (8804708890521614206293, 4741002146505487457873), (8797425928000480732649, 4754502817471546460837),
   (8790122264286341913220, 4767992300633208668792), (8782797916565422413626, 4781470564248417876030),
   (8775452902072619076890, 4794937576601517870145), (8768087238091463175849, 4808393306003327927201),
   (8760700941954072673568, 4821837720791216086447), (8753294031041114475755, 4835270789329176310822),
   (8745866522781766683181, 4848692480007900651451), (8738418434653674182755, 4862102761244854187694),
   (8730949784182906459051, 4875501601484349967208), (8723460588943919846727, 4888888969197622835772),
   (8715950866559515342047, 4902264832882903267119), (8708420634700794193961, 4915629161065491192772),
   (8700869911087119046300, 4928981922297832607427), (8693298713486071749301, 4942323085159590068116),
   (8685707059713412281354, 4955652618257718744488), (8678094967633036560528, 4968970490226539138412),
   (8670462455156929815203, 4982276669727812579147), (8662809540245133277381, 4995571125450813387836),
   (8655136240905694222647, 5008853826112402707338), (8647442575194626002144, 5022124740457103442282),
   (8639728561215870294987, 5035383837257171313340), (8631994217121243817559, 5048631085312671462617),
   (8624239561110407237265, 5061866453451550063036), (8616464611430815212501, 5075089910529705372610),
   (8608669386377674204169, 5088301425431067670502), (8600853904293902507661, 5101500967067665870402),
   (8593018183570084733702, 5114688504379703015701), (8585162242644428509664, 5127864006335629554201),
   (8577286100002721180857, 5141027441932216612841), (8569389774178287622064, 5154178780194629272415),
   (8561473283751944718389, 5167317990176498732069), (8553536647351959176788, 5180445040959994473795),
   (8545579883654004227367, 5193559901655896426931), (8537603011381112994016, 5206662541403672683771),
   (8529606049303635195713, 5219752929371545002724), (8521589016239197178493, 5232831034756566523924),
   (8513551931052649734966, 5245896826784691713286), (8505494812656032577181, 5258950274710849637216),
   (8497417680008522156143, 5271991347819017237342), (8489320552116393914233, 5285020015422288164331),
   (8481203448032970104720, 5298036246862951603731), (8473066386858580933961, 5311040011512554448458),
   (8464909387740517932031, 5324031278771984565523), (8456732469872987323356, 5337010018071535188966),
   (8448535652497066728017, 5349976198870978194577), (8440318954900659642604, 5362929790659638484840),
   (8432082396418449921072, 5375870762956461712534), (8423825996431854035151, 5388799085310091996348),
   (8415549774368978885875, 5401714727298936313815), (8407253749704575174206, 5414617658531243327147),
   (8398937941959989661456, 5427507848645167776169), (8390602370703120760353, 5440385267308848193935),
   (8382247055548374126133, 5453249884220473520102), (8373872016156612696491, 5466101669108358596105),
   (8365477272235113392895, 5478940591731011888754), (8357062843537518270765, 5491766621877207654734),
   (8348628749863793441222, 5504579729366059215323), (8340175011060173559940, 5517379884047085569776),
   (8331701647019124079563, 5530167055800286890488), (8323208677679287958995, 5542941214536213356823),
   (8314696123025443474930, 5555702330196035099164), (8306164003088454261814, 5568450372751614363409),
   (8297612337945221572255, 5581185312205574344802), (8289041147718639868103, 5593907118591374683092),
   (8280450452577547970634, 5606615761973374745253), (8271840272736681320964, 5619311212446909120644),
   (8263210628456624240457, 5631993440138356454838), (8254561540043764411578, 5644662415205210503899),
   (8245893027850241807641, 5657318107836147857981), (8237205112273902063436, 5669960488251102326274),
   (8228497813758252066307, 5682589526701332660608), (8219771152792403334786, 5695205193469489168834),
   (8211025149911034271000, 5707807458869690320213), (8202259825694334649526, 5720396293247588248576),
   (8193475200767956767578, 5732971666980440916817), (8184671295802973256528, 5745533550477176509830),
   (8175848131515823791204, 5758081914178472260346), (8167005728668264019632, 5770616728556814400974),
   (8158144108067323374556, 5783137964116575879814), (8149263290565251782738, 5795645591394077422720),
   (8140363297059468594696, 5808139580957666359140), (8131444148492520396232, 5820619903407776574156),
   (8122505865852023276830, 5833086529377004003649), (8113548470170621751407, 5845539429530174357907),
   (8104571982525932138941, 5857978574564410845227), (8095576424040495933099, 5870403935209203005741),
   (8086561815881733172873, 5882815482226475545247), (8077528179261886931428, 5895213186410662720149),
   (8068475535437975576514, 5907597018588766069058), (8059403905711745030871, 5919966949620433238621),
   (8050313311429617701975, 5932322950398022376461), (8041203773982639191331, 5944664991846669854780),
   (8032075314806430554881, 5956993044924359104186), (8022927955381138342972, 5969307080621990557745),
   (8013761717231382419868, 5981607069963449374583), (8004576621926208224167, 5993892984005672053271),
   (7995372691079030147421, 6006164793838716375873), (7986149946347588235440, 6018422470585828021328),
   (7976908409433890456697, 6030665985403509399276), (7967648102084166072956, 6042895309481588483891),
   (7958369046088813458795, 6055110414043283206809), (7949071263282347921120, 6067311270345273621629),
   (7939754775543349518685, 6079497849677765186627), (7930419604794414212279, 6091670123364560929247),
   (7921065773002100574018, 6103828062763123618595), (7911693302176878717091, 6115971639264649040157),
   (7902302214373077005050, 6128100824294127058067), (7892892531688833201997, 6140215589310414889823),
   (7883464276266037851215, 6152315905806299278780), (7874017470290288756019, 6164401745308567548420),
   (7864552135990832137935, 6176473079378070885070), (7855068295640513786893, 6188529879609795392170),
   (7845565971555726880737, 6200572117632924262765), (7836045186096356474081, 6212599765110908833776),
   (7826505961665730648491, 6224612793741532978942), (7816948320710567221781, 6236611175256979722192),
   (7807372285720917126639, 6248594881423897851036), (7797777879230117781262, 6260563884043469640162),
   (7788165123814732027085, 6272518154951475244374), (7778534042094502609643, 6284457666018361532423),
   (7768884656732295557191, 6296382389149305369713), (7759216990434046890002, 6308292296284281341912),
   (7749531065948709329660, 6320187359398126147880), (7739826906068197898136, 6332067550500608543729),
   (7730104533627339957746, 6343932841636491515303), (7720363971503814148889, 6355783204885598891565),
   (7710605242618107091346, 6367618612362879737532), (7700828369933447881124, 6379439036218478298323),
   (7691033376455764791757, 6391244448637795061430), (7681220285233621991594, 6403034821841555590538),
   (7671389119358171804208, 6414810128085870477577), (7661539901963095866577, 6426570339662307507211),
   (7651672656224556279270, 6438315428897953829335), (7641787405361133433956, 6450045368155479241778),
   (7631884172633778273820, 6461760129833203913918), (7621962981345754561957, 6473459686365161669386),
   (7612023854842583370228, 6485144010221165489227), (7602066816511988678329, 6496813073906873015062),
   (7592091889783845193307, 6508466849963850942018), (7582099098130117287297, 6520105310969637191221),
   (7572088465064809037486, 6531728429537809743621), (7562060014143908714956, 6543336178318047702263),
   (7552013768965327722427, 6554928529996196795437), (7541949753168853964880, 6566505457294333769624),
   (7531867990436087456629, 6578066932970829672200), (7521768504490389251060, 6589612929820416464821),
   (7511651319096825929478, 6601143420674249195912), (7501516458062111869509, 6612658378399965952710),
   (7491363945234553733954, 6624157775901762246207), (7481193804503996069855, 6635641586120443191632),
   (7471006059801761356454, 6647109782033493452502), (7460800735100596714489, 6658562336655142743780),
   (7450577854414618395040, 6669999223036421343025), (7440337441799250717267, 6681420414265231144668),
   (7430079521351174998145, 6692825883466406722277), (7419804117208267379979, 6704215603801777501047),
   (7409511253549547760144, 6715589548470231040511), (7399200954595118728818, 6726947690707776317254),
   (7388873244606107837384, 6738290003787608117847), (7378528147884616528174, 6749616461020168101115),
   (7368165688773654631305, 6760927035753208080848), (7357785891657090404649, 6772221701371853308515),
   (7347388780959589471564, 6783500431298663535529), (7336974381146557089295, 6794763198993699626627),
   (7326542716724082637825, 6806009977954580181247), (7316093812238878557608, 6817240741716548146911),
   (7305627692278229279310, 6828455463852530771263), (7295144381469922389982, 6839654117973205105230),
   (7284643904482204224138, 6850836677727054624398), (7274126286023709919704, 6862003116800436952616),
   (7263591550843411237537, 6873153408917642703813), (7253039723730558829828, 6884287527840956544267),
   (7242470829514620067613, 6895405447370721585543), (7231884893065224639841, 6906507141345398226306),
   (7221281939292103491113, 6917592583641629655489), (7210661993145029979857, 6928661748174299583880),
   (7200025079613765477404, 6939714608896593306397), (7189371223727992754604, 6950751139800062095020),
   (7178700450557264911566, 6961771314914683150832), (7168012785210943205172, 6972775108308919556066),
   (7157308252838133766360, 6983762494089782446594), (7146586878627637640093, 6994733446402892074190),
   (7135848687807881951528, 7005687939432538868800), (7125093705646868835757, 7016625947401740059917),
   (7114321957452109934650, 7027547444572308510402), (7103533468570568665257, 7038452405244904896975),
   (7092728264388601377988, 7049340803759104323589), (7081906370331897404569, 7060212614493454053033)]

end Model.Sincos
