import Mathlib.Data.Rat.Defs
import Mathlib.Data.Real.Basic
import Verif.Model.PyErr

/-!
# Tables of quadrature rules (`configurations/integration.py`)

`get_quadrature_data`. The tables have been copied from the code by a script, digit by digit; rounding of decimal numbers to double precision
is not modelled.
-/

namespace Pyblp

/-- Nodes of nested rules by level, pyblp/configurations/integration.py:355-480. -/
def nestedNodes : List (List ℚ) := [
  [0.0000000000000000e0],
  [0.0000000000000000e0, 1.7320508075688772e0],
  [0.0000000000000000e0, 1.7320508075688772e0],
  [0.0000000000000000e0, 7.4109534999454085e-1, 1.7320508075688772e0, 4.1849560176727323e0],
  [0.0000000000000000e0, 7.4109534999454085e-1, 1.7320508075688772e0, 2.8612795760570582e0, 4.1849560176727323e0],
  [0.0000000000000000e0, 7.4109534999454085e-1, 1.7320508075688772e0, 2.8612795760570582e0, 4.1849560176727323e0],
  [0.0000000000000000e0, 7.4109534999454085e-1, 1.7320508075688772e0, 2.8612795760570582e0, 4.1849560176727323e0],
  [0.0000000000000000e0, 7.4109534999454085e-1, 1.7320508075688772e0, 2.8612795760570582e0, 4.1849560176727323e0],
  [0.0000000000000000e0, 7.4109534999454085e-1, 1.2304236340273060e0, 1.7320508075688772e0, 2.5960831150492023e0,
    2.8612795760570582e0, 4.1849560176727323e0, 5.1870160399136562e0, 6.3633944943363696e0],
  [0.0000000000000000e0, 7.4109534999454085e-1, 1.2304236340273060e0, 1.7320508075688772e0, 2.5960831150492023e0,
    2.8612795760570582e0, 3.2053337944991944e0, 4.1849560176727323e0, 5.1870160399136562e0, 6.3633944943363696e0],
  [0.0000000000000000e0, 7.4109534999454085e-1, 1.2304236340273060e0, 1.7320508075688772e0, 2.5960831150492023e0,
    2.8612795760570582e0, 3.2053337944991944e0, 4.1849560176727323e0, 5.1870160399136562e0, 6.3633944943363696e0],
  [0.0000000000000000e0, 7.4109534999454085e-1, 1.2304236340273060e0, 1.7320508075688772e0, 2.5960831150492023e0,
    2.8612795760570582e0, 3.2053337944991944e0, 4.1849560176727323e0, 5.1870160399136562e0, 6.3633944943363696e0],
  [0.0000000000000000e0, 7.4109534999454085e-1, 1.2304236340273060e0, 1.7320508075688772e0, 2.5960831150492023e0,
    2.8612795760570582e0, 3.2053337944991944e0, 4.1849560176727323e0, 5.1870160399136562e0, 6.3633944943363696e0],
  [0.0000000000000000e0, 7.4109534999454085e-1, 1.2304236340273060e0, 1.7320508075688772e0, 2.5960831150492023e0,
    2.8612795760570582e0, 3.2053337944991944e0, 4.1849560176727323e0, 5.1870160399136562e0, 6.3633944943363696e0],
  [0.0000000000000000e0, 7.4109534999454085e-1, 1.2304236340273060e0, 1.7320508075688772e0, 2.5960831150492023e0,
    2.8612795760570582e0, 3.2053337944991944e0, 4.1849560176727323e0, 5.1870160399136562e0, 6.3633944943363696e0],
  [0.0000000000000000e0, 2.4899229757996061e-1, 7.4109534999454085e-1, 1.2304236340273060e0, 1.7320508075688772e0,
    2.2336260616769419e0, 2.5960831150492023e0, 2.8612795760570582e0, 3.2053337944991944e0, 3.6353185190372783e0,
    4.1849560176727323e0, 5.1870160399136562e0, 6.3633944943363696e0, 7.1221067008046166e0, 7.9807717985905606e0,
    9.0169397898903032e0],
  [0.0000000000000000e0, 2.4899229757996061e-1, 7.4109534999454085e-1, 1.2304236340273060e0, 1.7320508075688772e0,
    2.2336260616769419e0, 2.5960831150492023e0, 2.8612795760570582e0, 3.2053337944991944e0, 3.6353185190372783e0,
    4.1849560176727323e0, 5.1870160399136562e0, 5.6981777684881099e0, 6.3633944943363696e0, 7.1221067008046166e0,
    7.9807717985905606e0, 9.0169397898903032e0],
  [0.0000000000000000e0, 2.4899229757996061e-1, 7.4109534999454085e-1, 1.2304236340273060e0, 1.7320508075688772e0,
    2.2336260616769419e0, 2.5960831150492023e0, 2.8612795760570582e0, 3.2053337944991944e0, 3.6353185190372783e0,
    4.1849560176727323e0, 4.7364330859522967e0, 5.1870160399136562e0, 5.6981777684881099e0, 6.3633944943363696e0,
    7.1221067008046166e0, 7.9807717985905606e0, 9.0169397898903032e0],
  [0.0000000000000000e0, 2.4899229757996061e-1, 7.4109534999454085e-1, 1.2304236340273060e0, 1.7320508075688772e0,
    2.2336260616769419e0, 2.5960831150492023e0, 2.8612795760570582e0, 3.2053337944991944e0, 3.6353185190372783e0,
    4.1849560176727323e0, 4.7364330859522967e0, 5.1870160399136562e0, 5.6981777684881099e0, 6.3633944943363696e0,
    7.1221067008046166e0, 7.9807717985905606e0, 9.0169397898903032e0],
  [0.0000000000000000e0, 2.4899229757996061e-1, 7.4109534999454085e-1, 1.2304236340273060e0, 1.7320508075688772e0,
    2.2336260616769419e0, 2.5960831150492023e0, 2.8612795760570582e0, 3.2053337944991944e0, 3.6353185190372783e0,
    4.1849560176727323e0, 4.7364330859522967e0, 5.1870160399136562e0, 5.6981777684881099e0, 6.3633944943363696e0,
    7.1221067008046166e0, 7.9807717985905606e0, 9.0169397898903032e0],
  [0.0000000000000000e0, 2.4899229757996061e-1, 7.4109534999454085e-1, 1.2304236340273060e0, 1.7320508075688772e0,
    2.2336260616769419e0, 2.5960831150492023e0, 2.8612795760570582e0, 3.2053337944991944e0, 3.6353185190372783e0,
    4.1849560176727323e0, 4.7364330859522967e0, 5.1870160399136562e0, 5.6981777684881099e0, 6.3633944943363696e0,
    7.1221067008046166e0, 7.9807717985905606e0, 9.0169397898903032e0],
  [0.0000000000000000e0, 2.4899229757996061e-1, 7.4109534999454085e-1, 1.2304236340273060e0, 1.7320508075688772e0,
    2.2336260616769419e0, 2.5960831150492023e0, 2.8612795760570582e0, 3.2053337944991944e0, 3.6353185190372783e0,
    4.1849560176727323e0, 4.7364330859522967e0, 5.1870160399136562e0, 5.6981777684881099e0, 6.3633944943363696e0,
    7.1221067008046166e0, 7.9807717985905606e0, 9.0169397898903032e0],
  [0.0000000000000000e0, 2.4899229757996061e-1, 7.4109534999454085e-1, 1.2304236340273060e0, 1.7320508075688772e0,
    2.2336260616769419e0, 2.5960831150492023e0, 2.8612795760570582e0, 3.2053337944991944e0, 3.6353185190372783e0,
    4.1849560176727323e0, 4.7364330859522967e0, 5.1870160399136562e0, 5.6981777684881099e0, 6.3633944943363696e0,
    7.1221067008046166e0, 7.9807717985905606e0, 9.0169397898903032e0],
  [0.0000000000000000e0, 2.4899229757996061e-1, 7.4109534999454085e-1, 1.2304236340273060e0, 1.7320508075688772e0,
    2.2336260616769419e0, 2.5960831150492023e0, 2.8612795760570582e0, 3.2053337944991944e0, 3.6353185190372783e0,
    4.1849560176727323e0, 4.7364330859522967e0, 5.1870160399136562e0, 5.6981777684881099e0, 6.3633944943363696e0,
    7.1221067008046166e0, 7.9807717985905606e0, 9.0169397898903032e0],
  [0.0000000000000000e0, 2.4899229757996061e-1, 7.4109534999454085e-1, 1.2304236340273060e0, 1.7320508075688772e0,
    2.2336260616769419e0, 2.5960831150492023e0, 2.8612795760570582e0, 3.2053337944991944e0, 3.6353185190372783e0,
    4.1849560176727323e0, 4.7364330859522967e0, 5.1870160399136562e0, 5.6981777684881099e0, 6.3633944943363696e0,
    7.1221067008046166e0, 7.9807717985905606e0, 9.0169397898903032e0]]

/-- Weights of nested rules by level, pyblp/configurations/integration.py:481-601. -/
def nestedWeights : List (List ℚ) := [
  [1.0000000000000000e0],
  [6.6666666666666663e-1, 1.6666666666666666e-1],
  [6.6666666666666674e-1, 1.6666666666666666e-1],
  [4.5874486825749189e-1, 1.3137860698313561e-1, 1.3855327472974924e-1, 6.9568415836913987e-4],
  [2.5396825396825407e-1, 2.7007432957793776e-1, 9.4850948509485125e-2, 7.9963254708935293e-3, 9.4269457556517470e-5],
  [2.5396825396825429e-1, 2.7007432957793776e-1, 9.4850948509485070e-2, 7.9963254708935293e-3, 9.4269457556517551e-5],
  [2.5396825396825418e-1, 2.7007432957793781e-1, 9.4850948509485014e-2, 7.9963254708935311e-3, 9.4269457556517592e-5],
  [2.5396825396825418e-1, 2.7007432957793781e-1, 9.4850948509485042e-2, 7.9963254708935276e-3, 9.4269457556517375e-5],
  [2.6692223033505302e-1, 2.5456123204171222e-1, 1.4192654826449365e-2, 8.8681002152028010e-2, 1.9656770938777492e-3,
    7.0334802378279075e-3, 1.0563783615416941e-4, -8.2049207541509217e-7, 2.1136499505424257e-8],
  [3.0346719985420623e-1, 2.0832499164960877e-1, 6.1151730125247716e-2, 6.4096054686807610e-2, 1.8085234254798462e-2,
    -6.3372247933737571e-3, 2.8848804365067559e-3, 6.0123369459847997e-5, 6.0948087314689840e-7,
    8.6296846022298632e-10],
  [3.0346719985420623e-1, 2.0832499164960872e-1, 6.1151730125247709e-2, 6.4096054686807541e-2, 1.8085234254798459e-2,
    -6.3372247933737545e-3, 2.8848804365067555e-3, 6.0123369459847922e-5, 6.0948087314689830e-7,
    8.6296846022298839e-10],
  [3.0346719985420623e-1, 2.0832499164960872e-1, 6.1151730125247716e-2, 6.4096054686807624e-2, 1.8085234254798466e-2,
    -6.3372247933737545e-3, 2.8848804365067559e-3, 6.0123369459847841e-5, 6.0948087314689830e-7,
    8.6296846022298963e-10],
  [3.0346719985420600e-1, 2.0832499164960883e-1, 6.1151730125247730e-2, 6.4096054686807638e-2, 1.8085234254798459e-2,
    -6.3372247933737580e-3, 2.8848804365067555e-3, 6.0123369459847868e-5, 6.0948087314689830e-7,
    8.6296846022298756e-10],
  [3.0346719985420617e-1, 2.0832499164960874e-1, 6.1151730125247702e-2, 6.4096054686807596e-2, 1.8085234254798459e-2,
    -6.3372247933737563e-3, 2.8848804365067555e-3, 6.0123369459847936e-5, 6.0948087314689851e-7,
    8.6296846022298322e-10],
  [3.0346719985420612e-1, 2.0832499164960874e-1, 6.1151730125247723e-2, 6.4096054686807652e-2, 1.8085234254798459e-2,
    -6.3372247933737597e-3, 2.8848804365067563e-3, 6.0123369459848091e-5, 6.0948087314689851e-7,
    8.6296846022298983e-10],
  [2.5890005324151566e-1, 2.8128101540033167e-2, 1.9968863511734550e-1, 6.5417392836092561e-2, 6.1718532565867179e-2,
    1.7608475581318002e-3, 1.6592492698936010e-2, -5.5610063068358157e-3, 2.7298430467334002e-3,
    1.5044205390914219e-5, 5.9474961163931621e-5, 6.1435843232617913e-7, 7.9298267864869338e-10,
    5.1158053105504208e-12, -1.4840835740298868e-13, 1.2618464280815118e-15],
  [1.3911022236338039e-1, 1.0387687125574284e-1, 1.7607598741571459e-1, 7.7443602746299481e-2, 5.4677556143463042e-2,
    7.3530110204955076e-3, 1.1529247065398790e-2, -2.7712189007789243e-3, 2.1202259559596325e-3,
    8.3236045295766745e-5, 5.5691158981081479e-5, 6.9086261179113738e-7, -1.3486017348542930e-8,
    1.5542195992782658e-9, -1.9341305000880955e-11, 2.6640625166231651e-13, -9.9313913286822465e-16],
  [5.1489450806921377e-4, 1.9176011588804434e-1, 1.4807083115521585e-1, 9.2364726716986353e-2, 4.5273685465150391e-2,
    1.5673473751851151e-2, 3.1554462691875513e-3, 2.3113452403522071e-3, 8.1895392750226735e-4,
    2.7524214116785131e-4, 3.5729348198975332e-5, 2.7342206801187888e-6, 2.4676421345798140e-7,
    2.1394194479561062e-8, 4.6011760348655917e-10, 3.0972223576062995e-12, 5.4500412650638128e-15,
    1.0541326582334014e-18],
  [5.1489450806921377e-4, 1.9176011588804437e-1, 1.4807083115521585e-1, 9.2364726716986353e-2, 4.5273685465150523e-2,
    1.5673473751851151e-2, 3.1554462691875604e-3, 2.3113452403522050e-3, 8.1895392750226670e-4,
    2.7524214116785131e-4, 3.5729348198975447e-5, 2.7342206801187884e-6, 2.4676421345798140e-7,
    2.1394194479561056e-8, 4.6011760348656077e-10, 3.0972223576063011e-12, 5.4500412650637663e-15,
    1.0541326582337958e-18],
  [5.1489450806925551e-4, 1.9176011588804440e-1, 1.4807083115521585e-1, 9.2364726716986298e-2, 4.5273685465150537e-2,
    1.5673473751851155e-2, 3.1554462691875573e-3, 2.3113452403522080e-3, 8.1895392750226724e-4,
    2.7524214116785137e-4, 3.5729348198975352e-5, 2.7342206801187888e-6, 2.4676421345798124e-7,
    2.1394194479561056e-8, 4.6011760348656144e-10, 3.0972223576062963e-12, 5.4500412650638365e-15,
    1.0541326582335402e-18],
  [5.1489450806913744e-4, 1.9176011588804429e-1, 1.4807083115521594e-1, 9.2364726716986312e-2, 4.5273685465150391e-2,
    1.5673473751851151e-2, 3.1554462691875565e-3, 2.3113452403522089e-3, 8.1895392750226670e-4,
    2.7524214116785142e-4, 3.5729348198975285e-5, 2.7342206801187888e-6, 2.4676421345798119e-7,
    2.1394194479561059e-8, 4.6011760348656594e-10, 3.0972223576062950e-12, 5.4500412650638696e-15,
    1.0541326582332041e-18],
  [5.1489450806903368e-4, 1.9176011588804448e-1, 1.4807083115521574e-1, 9.2364726716986423e-2, 4.5273685465150516e-2,
    1.5673473751851161e-2, 3.1554462691875543e-3, 2.3113452403522063e-3, 8.1895392750226713e-4,
    2.7524214116785164e-4, 3.5729348198975319e-5, 2.7342206801187905e-6, 2.4676421345798151e-7,
    2.1394194479561082e-8, 4.6011760348656005e-10, 3.0972223576063043e-12, 5.4500412650637592e-15,
    1.0541326582339926e-18],
  [5.1489450806913755e-4, 1.9176011588804442e-1, 1.4807083115521577e-1, 9.2364726716986381e-2, 4.5273685465150468e-2,
    1.5673473751851155e-2, 3.1554462691875560e-3, 2.3113452403522045e-3, 8.1895392750226572e-4,
    2.7524214116785158e-4, 3.5729348198975298e-5, 2.7342206801187892e-6, 2.4676421345798129e-7,
    2.1394194479561072e-8, 4.6011760348656103e-10, 3.0972223576062963e-12, 5.4500412650638207e-15,
    1.0541326582338368e-18],
  [5.1489450806914438e-4, 1.9176011588804442e-1, 1.4807083115521577e-1, 9.2364726716986340e-2, 4.5273685465150509e-2,
    1.5673473751851155e-2, 3.1554462691875586e-3, 2.3113452403522058e-3, 8.1895392750226551e-4,
    2.7524214116785142e-4, 3.5729348198975386e-5, 2.7342206801187884e-6, 2.4676421345798082e-7,
    2.1394194479561059e-8, 4.6011760348656382e-10, 3.0972223576062942e-12, 5.4500412650638381e-15,
    1.0541326582336941e-18],
  [5.1489450806919989e-4, 1.9176011588804437e-1, 1.4807083115521580e-1, 9.2364726716986395e-2, 4.5273685465150426e-2,
    1.5673473751851158e-2, 3.1554462691875539e-3, 2.3113452403522054e-3, 8.1895392750226681e-4,
    2.7524214116785142e-4, 3.5729348198975292e-5, 2.7342206801187884e-6, 2.4676421345798108e-7,
    2.1394194479561056e-8, 4.6011760348655901e-10, 3.0972223576062975e-12, 5.4500412650638412e-15,
    1.0541326582337527e-18]]

/-- Nodes of Gauss-Hermite rules by level, pyblp/configurations/integration.py:603-690. -/
def gaussNodes : List (List ℚ) := [
  [0.0000000000000000e0],
  [1.0000000000000002e0],
  [0.0000000000000000e0, 1.7320508075688772e0],
  [7.4196378430272591e-1, 2.3344142183389773e0],
  [0.0000000000000000e0, 1.3556261799742659e0, 2.8569700138728056e0],
  [6.1670659019259422e-1, 1.8891758777537109e0, 3.3242574335521193e0],
  [0.0000000000000000e0, 1.1544053947399682e0, 2.3667594107345415e0, 3.7504397177257425e0],
  [5.3907981135137517e-1, 1.6365190424351082e0, 2.8024858612875416e0, 4.1445471861258945e0],
  [0.0000000000000000e0, 1.0232556637891326e0, 2.0768479786778302e0, 3.2054290028564703e0, 4.5127458633997826e0],
  [4.8493570751549764e-1, 1.4659890943911582e0, 2.4843258416389546e0, 3.5818234835519269e0, 4.8594628283323127e0],
  [0.0000000000000000e0, 9.2886899738106388e-1, 1.8760350201548459e0, 2.8651231606436447e0, 3.9361666071299775e0,
    5.1880012243748714e0],
  [4.4440300194413901e-1, 1.3403751971516167e0, 2.2594644510007993e0, 3.2237098287700974e0, 4.2718258479322815e0,
    5.5009017044677480e0],
  [0.0000000000000000e0, 8.5667949351945005e-1, 1.7254183795882394e0, 2.6206899734322149e0, 3.5634443802816347e0,
    4.5913984489365207e0, 5.8001672523865011e0],
  [4.1259045795460181e-1, 1.2426889554854643e0, 2.0883447457019444e0, 2.9630365798386675e0, 3.8869245750597696e0,
    4.8969363973455646e0, 6.0874095469012914e0],
  [0.0000000000000000e0, 7.9912906832454811e-1, 1.6067100690287301e0, 2.4324368270097581e0, 3.2890824243987664e0,
    4.1962077112690155e0, 5.1900935913047821e0, 6.3639478888298378e0],
  [3.8676060450055738e-1, 1.1638291005549648e0, 1.9519803457163336e0, 2.7602450476307019e0, 3.6008736241715487e0,
    4.4929553025200120e0, 5.4722257059493433e0, 6.6308781983931295e0],
  [0.0000000000000000e0, 7.5184260070389630e-1, 1.5098833077967408e0, 2.2810194402529889e0, 3.0737971753281941e0,
    3.9000657171980104e0, 4.7785315896299840e0, 5.7444600786594071e0, 6.8891224398953330e0],
  [3.6524575550769767e-1, 1.0983955180915013e0, 1.8397799215086457e0, 2.5958336889112403e0, 3.3747365357780907e0,
    4.1880202316294044e0, 5.0540726854427405e0, 6.0077459113595975e0, 7.1394648491464796e0],
  [0.0000000000000000e0, 7.1208504404237993e-1, 1.4288766760783731e0, 2.1555027613169351e0, 2.8980512765157536e0,
    3.6644165474506383e0, 4.4658726268310316e0, 5.3205363773360386e0, 6.2628911565132519e0, 7.3825790240304316e0],
  [3.4696415708135592e-1, 1.0429453488027509e0, 1.7452473208141270e0, 2.4586636111723679e0, 3.1890148165533900e0,
    3.9439673506573163e0, 4.7345813340460552e0, 5.5787388058932015e0, 6.5105901570136551e0, 7.6190485416797591e0],
  [0.0000000000000000e0, 6.7804569244064405e-1, 1.3597658232112304e0, 2.0491024682571628e0, 2.7505929810523733e0,
    3.4698466904753764e0, 4.2143439816884216e0, 4.9949639447820253e0, 5.8293820073044706e0, 6.7514447187174609e0,
    7.8493828951138225e0],
  [3.3117931571527381e-1, 9.9516242227121554e-1, 1.6641248391179071e0, 2.3417599962877080e0, 3.0324042278316763e0,
    3.7414963502665177e0, 4.4763619773108685e0, 5.2477244337144251e0, 6.0730749511228979e0, 6.9859804240188152e0,
    8.0740299840217116e0],
  [0.0000000000000000e0, 6.4847115353449580e-1, 1.2998764683039790e0, 1.9573275529334242e0, 2.6243236340591820e0,
    3.3050400217529652e0, 4.0047753217333044e0, 4.7307241974514733e0, 5.4934739864717947e0, 6.3103498544483996e0,
    7.2146594350518622e0, 8.2933860274173536e0],
  [3.1737009662945231e-1, 9.5342192293210926e-1, 1.5934804298164202e0, 2.2404678516917524e0, 2.8977286432233140e0,
    3.5693067640735610e0, 4.2603836050199053e0, 4.9780413746391208e0, 5.7327471752512009e0, 6.5416750050986341e0,
    7.4378906660216630e0, 8.5078035191952583e0],
  [0.0000000000000000e0, 6.2246227918607611e-1, 1.2473119756167892e0, 1.8770583699478387e0, 2.5144733039522058e0,
    3.1627756793881927e0, 3.8259005699724917e0, 4.5089299229672850e0, 5.2188480936442794e0, 5.9660146906067020e0,
    6.7674649638097168e0, 7.6560379553930762e0, 8.7175976783995885e0]]

/-- Weights of Gauss-Hermite rules by level, pyblp/configurations/integration.py:691-778. -/
def gaussWeights : List (List ℚ) := [
  [1.0000000000000000e0],
  [5.0000000000000000e-1],
  [6.6666666666666663e-1, 1.6666666666666674e-1],
  [4.5412414523193145e-1, 4.5875854768068498e-2],
  [5.3333333333333344e-1, 2.2207592200561263e-1, 1.1257411327720691e-2],
  [4.0882846955602919e-1, 8.8615746041914523e-2, 2.5557844020562431e-3],
  [4.5714285714285757e-1, 2.4012317860501250e-1, 3.0757123967586491e-2, 5.4826885597221875e-4],
  [3.7301225767907736e-1, 1.1723990766175897e-1, 9.6352201207882630e-3, 1.1261453837536784e-4],
  [4.0634920634920685e-1, 2.4409750289493909e-1, 4.9916406765217969e-2, 2.7891413212317675e-3, 2.2345844007746563e-5],
  [3.4464233493201940e-1, 1.3548370298026730e-1, 1.9111580500770317e-2, 7.5807093431221972e-4, 4.3106526307183106e-6],
  [3.6940836940836957e-1, 2.4224029987397003e-1, 6.6138746071057644e-2, 6.7202852355372697e-3, 1.9567193027122324e-4,
    8.1218497902149036e-7],
  [3.2166436151283007e-1, 1.4696704804532995e-1, 2.9116687912364138e-2, 2.2033806875331849e-3, 4.8371849225906076e-5,
    1.4999271676371597e-7],
  [3.4099234099234149e-1, 2.3787152296413588e-1, 7.9168955860450141e-2, 1.1770560505996543e-2, 6.8123635044292619e-4,
    1.1526596527333885e-5, 2.7226276428059039e-8],
  [3.0263462681301945e-1, 1.5408333984251366e-1, 3.8650108824253432e-2, 4.4289191069474066e-3, 2.0033955376074381e-4,
    2.6609913440676334e-6, 4.8681612577483872e-9],
  [3.1825951825951820e-1, 2.3246229360973222e-1, 8.9417795399844444e-2, 1.7365774492137616e-2, 1.5673575035499571e-3,
    5.6421464051890157e-5, 5.9754195979205961e-7, 8.5896498996331805e-10],
  [2.8656852123801241e-1, 1.5833837275094925e-1, 4.7284752354014067e-2, 7.2669376011847411e-3, 5.2598492657390979e-4,
    1.5300032162487286e-5, 1.3094732162868203e-7, 1.4978147231618314e-10],
  [2.9953837012660756e-1, 2.2670630846897877e-1, 9.7406371162718081e-2, 2.3086657025711152e-2, 2.8589460622846499e-3,
    1.6849143155133945e-4, 4.0126794479798725e-6, 2.8080161179305783e-8, 2.5843149193749151e-11],
  [2.7278323465428789e-1, 1.6068530389351263e-1, 5.4896632480222654e-2, 1.0516517751941352e-2, 1.0654847962916496e-3,
    5.1798961441161962e-5, 1.0215523976369816e-6, 5.9054884788365484e-9, 4.4165887693587078e-12],
  [2.8377319275152108e-1, 2.2094171219914366e-1, 1.0360365727614400e-1, 2.8666691030118496e-2, 4.5072354203420355e-3,
    3.7850210941426759e-4, 1.5351145954666744e-5, 2.5322200320928681e-7, 1.2203708484474786e-9,
    7.4828300540572308e-13],
  [2.6079306344955544e-1, 1.6173933398400026e-1, 6.1506372063976029e-2, 1.3997837447101043e-2, 1.8301031310804918e-3,
    1.2882627996192898e-4, 4.4021210902308646e-6, 6.1274902599829597e-8, 2.4820623623151838e-10,
    1.2578006724379305e-13],
  [2.7026018357287707e-1, 2.1533371569505982e-1, 1.0839228562641938e-1, 3.3952729786542839e-2, 6.4396970514087768e-3,
    7.0804779548153736e-4, 4.2192347425515866e-5, 1.2253548361482522e-6, 1.4506612844930740e-8,
    4.9753686041217464e-11, 2.0989912195656652e-14],
  [2.5024359658693501e-1, 1.6190629341367538e-1, 6.7196311428889891e-2, 1.7569072880805774e-2, 2.8087610475772107e-3,
    2.6228330325596416e-4, 1.3345977126808712e-5, 3.3198537498140043e-7, 3.3665141594582109e-9,
    9.8413789823460105e-12, 3.4794606478771428e-15],
  [2.5850974080883904e-1, 2.0995966957754261e-1, 1.1207338260262091e-1, 3.8867183703480947e-2, 8.5796783914656640e-3,
    1.1676286374978613e-3, 9.3408186090312983e-5, 4.0899772449921549e-6, 8.7750624838617161e-8,
    7.6708888623999076e-10, 1.9229353115677913e-12, 5.7323831678020873e-16],
  [2.4087011554664056e-1, 1.6145951286700025e-1, 7.2069364017178436e-2, 2.1126344408967029e-2, 3.9766089291813113e-3,
    4.6471871877939763e-4, 3.2095005652745989e-5, 1.2176597454425830e-6, 2.2674616734804651e-8,
    1.7186649279648690e-10, 3.7149741527624159e-13, 9.3901936890419202e-17],
  [2.4816935117648548e-1, 2.0485102565034041e-1, 1.1488092430395164e-1, 4.3379970167644971e-2, 1.0856755991462316e-2,
    1.7578504052637961e-3, 1.7776690692652660e-4, 1.0672194905202536e-5, 3.5301525602454978e-7,
    5.7380238688993763e-9, 3.7911500004771871e-11, 7.1021030370039253e-14, 1.5300389979986825e-17]]

/-- `node_data_list`, pyblp/configurations/integration.py:354-355 and 602. -/
def nodeData (nested : Bool) : List (List ℚ) := if nested then nestedNodes else gaussNodes

/-- `weight_data_list`, pyblp/configurations/integration.py:354 and 602. -/
def weightData (nested : Bool) : List (List ℚ) := if nested then nestedWeights else gaussWeights

/-- Indexing of a Python list by `level - 1`: the index is `-1` for level zero. Used for pyblp/configurations/integration.py:352-784. -/
def levelEntry (table : List (List ℚ)) (level : ℕ) : Option (List ℚ) := if level = 0 then table.getLast? else table[level - 1]?

/-- `get_quadrature_data`, pyblp/configurations/integration.py:352-784, for levels that are not negative. -/
def getQuadratureData (level : ℕ) (nested : Bool) : Except PyErr (List ℚ × List ℚ) :=
  match levelEntry (nodeData nested) level, levelEntry (weightData nested) level with
  | some nodes, some weights => .ok (nodes, weights)
  | _, _ => .error .valueError

/-- The same, as real numbers. Used for pyblp/configurations/integration.py:352-784. -/
noncomputable def quadratureData (nested : Bool) (level : ℕ) : List ℝ × List ℝ :=
  match getQuadratureData level nested with
  | .ok (nodes, weights) => (nodes.map fun q : ℚ => (q : ℝ), weights.map fun q : ℚ => (q : ℝ))
  | .error _ => ([], [])

end Pyblp
