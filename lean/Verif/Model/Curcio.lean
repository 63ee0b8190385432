import Verif.Model.Retina
import Mathlib.Data.Rat.Cast.CharZero
import Mathlib.Data.Real.Basic

/-! `rgc_density_on_meridian`, raytools/evaluate/retina.py 105-132, with `np.interp` and the tables of lines 225-355 written out.
The decimals of the file are taken as exact numbers. -/

namespace Verif.Retina

/-- `_curcio_nozero[0]`, retina.py: eccentricity in degrees and cells per square degree -/
def temporal : List (ℚ × ℚ) :=
  [(0.18593923369252877, 44.04486724637118), (0.3717178308822736, 93.27509002277617), (0.5573316409090776, 198.78698645599684),
   (0.7427764977750474, 345.14206545230155), (1.1131426529212247, 1016.4921674895295), (1.4827829593647686, 1460.4333317652136),
   (1.8516644783823826, 1828.1252513740205), (2.2197552940730496, 1960.6584606225276), (2.5870255432599225, 2085.475117966171),
   (2.953449149712472, 2217.2767820329545), (3.31900679290571, 2342.4640796660046), (3.6836910241589105, 2374.660330589903),
   (5.496092431124066, 2069.255695654906), (7.309190492700514, 1282.5353001727826), (9.142240526078217, 751.4476414029601),
   (10.994765968171452, 492.43006927557184), (18.522503804692484, 244.45459692983894), (22.312720415066067, 226.03104078393105),
   (26.097857900564726, 209.0325120219425), (29.870308487985934, 181.4036385525174), (33.62997699705354, 143.7728154334466),
   (37.38428195373141, 110.33967350723363), (41.148156075669945, 90.3683973832319), (44.944046636790006, 79.71178905772537),
   (48.80191581130344, 69.9320213451311), (52.75924101405819, 61.47100679480568), (56.86101523023512, 53.48768790671183),
   (61.159747316488954, 46.62792067725425), (65.71546224905477, 38.43392514810544), (70.5957012915439, 30.498345341427296),
   (75.87552205717101, 23.54151243161036), (81.63749844776936, 15.280986323342862), (87.97172046481518, 10.732960056617229)]

/-- `_curcio_nozero[1]`, retina.py: eccentricity in degrees and cells per square degree -/
def superior : List (ℚ × ℚ) :=
  [(0.550233963180544, 28.588082376804778), (0.7335011377041551, 119.37582656017271), (1.0998704064881881, 700.1324809546082),
   (1.4660819859706975, 1375.1623704831711), (1.8322149031328192, 1848.0020695754924), (2.1983507190480474, 2044.233823113446),
   (2.564570904219949, 2092.6703340121226), (2.9309542225042526, 2098.755365542933), (3.2975743653080882, 2112.379709683535),
   (3.664498030757884, 2039.0232001188388), (5.505390523026586, 1387.2230758663704), (7.358901171835787, 871.9981716115124),
   (9.224896045436125, 590.3718199737535), (11.101263681414402, 431.9496814466633), (14.874340393583799, 241.0785460949621),
   (18.658178224708905, 156.73195466309647), (22.43835579663088, 114.03852703528533), (26.20747855963523, 97.00162933290599),
   (29.965510328268024, 75.5295020408025), (33.7198675919376, 60.035746714586786), (37.48545310663173, 43.94237419037801),
   (41.28467077707197, 31.26095732464047), (45.14743387650181, 26.46259676627039), (49.111170564943365, 23.901916201454696),
   (53.220828095818824, 21.387873950004174), (57.52887615397506, 18.80405892440746), (62.095309375899646, 15.789364331254303),
   (66.98764894026573, 12.10655110734033), (72.28094307870904, 8.770651414360177), (78.05776640401032, 7.352182662490541),
   (84.40821806124717, 5.3828977637443405)]

/-- `_curcio_nozero[2]`, retina.py: eccentricity in degrees and cells per square degree -/
def nasal : List (ℚ × ℚ) :=
  [(0.18609574024132236, 13.642224855792355), (0.3723438821360879, 49.018225489997356), (0.5587403493942099, 119.42980837318217),
   (0.7452810972349723, 303.3539776112752), (1.1187794270092395, 820.236588824208), (1.492807224442807, 1250.5519036556952),
   (1.8673334627883122, 1593.832907000932), (2.2423277698263666, 1692.332668322065), (2.617760452197751, 1806.4929444368368),
   (2.9936025129379713, 1926.5199197102822), (3.369825664284743, 2012.1877464547917), (3.7464023371508843, 2015.0019767880601),
   (5.6336746771345725, 1707.4759437387086), (7.526071665400324, 1210.7695431481452), (9.420978792024693, 833.677620814168),
   (11.316249083753902, 586.3104294462349), (15.101635111623818, 283.2349068144286), (18.87443425652101, 165.84758925059035),
   (22.63436212527552, 115.59487769209959), (26.388647406362324, 76.9537932292463), (30.152032737336533, 55.009907495087226),
   (33.94677525485396, 41.8629871004271), (37.80264703601664, 30.820864683843475), (41.75693549104231, 24.99016095054558),
   (45.85444371717299, 20.110113240656887), (50.147490801803194, 16.840968392033965), (54.695912052189826, 12.931766264533087),
   (59.567059126021746, 10.026405148168433), (64.83580004103732, 8.62649206015602)]

/-- `_curcio_nozero[3]`, retina.py: eccentricity in degrees and cells per square degree -/
def inferior : List (ℚ × ℚ) :=
  [(0.1835809385909668, 37.391520240434666), (0.3672580363229842, 90.12699185434538), (0.5510372355174309, 249.437121068217),
   (0.7349238911274849, 493.2108300406277), (1.1030380830755004, 1082.453292457224), (1.471631994701548, 1610.2758922129483),
   (1.8407284168030345, 1983.3089650782533), (2.2103423139296576, 2031.5422102177708), (2.5804817064036194, 2069.678912807843),
   (2.951148586786319, 2105.454751383192), (3.322339812544252, 2100.948307894678), (3.6940479379285027, 1988.5925574830246),
   (5.559867472191449, 1348.2086272974666), (7.436093405865805, 727.5067813469979), (9.320030408557752, 490.5855896552269),
   (11.209002125908963, 312.92986055035055), (14.992807030840048, 144.1646454133318), (18.77304101986144, 94.74293408347762),
   (22.542253120449665, 71.35548046728823), (26.300346373716106, 53.40502365532766), (30.05467462322393, 41.78054273431498),
   (33.82007722367664, 33.1849696825539), (37.6188944785438, 26.219971064184996), (41.48097615682201, 21.84238246440211),
   (45.443687172993215, 18.88391803873515), (49.55191186952844, 17.81137621351253), (53.85805736281627, 16.654949662512383),
   (58.42205600935188, 14.234065864687464), (63.31136688553662, 10.222039436761069), (68.60097614179438, 5.971059086995101),
   (74.37339614738148, 2.8085175111507112), (80.7186634582328, 0.6778900972815473)]

/-- `meridians`, retina.py 126-127 -/
def curcio (mi : Fin 4) : List (ℚ × ℚ) :=
  match mi with
  | 0 => temporal
  | 1 => superior
  | 2 => nasal
  | 3 => inferior

/-- `np.interp(x, xp, fp)` for increasing `xp`: constant before the first and after the last point, straight between
neighbours -/
noncomputable def npInterp : List (ℚ × ℚ) → ℝ → ℝ
  | [], _ => 0
  | [p], _ => p.2
  | p :: q :: l, x =>
    if x ≤ p.1 then p.2
    else if x < q.1 then (q.2 - p.2) / (q.1 - p.1) * (x - p.1) + p.2
    else npInterp (q :: l) x

/-- `rgc_density_on_meridian`, retina.py 105-132 -/
noncomputable def curcioMeridian (deg : ℝ) (mi : Fin 4) : ℝ := rgcMeridian (fun deg mi => npInterp (curcio mi) deg) deg mi

/-- `rgc_density`, retina.py 205-220 -/
noncomputable def curcioDensity (isInt : Bool) (p : ℝ × ℝ) : ℝ := rgcDensity isInt (fun deg mi => npInterp (curcio mi) deg) p

end Verif.Retina
