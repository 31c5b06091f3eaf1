/-!
# The table of the normal distribution
-/
set_option autoImplicit false
namespace Verif.Stats

/-- The array `znorm` in units of 1e-7 (statdist.c:840-944). -/
def znorm : List Nat := [
   0, 100000, 200000, 300000, 400000, 500000, 600000, 700000, 800000, 900000,
   999999, 1100000, 1200000, 1300000, 1400000, 1500000, 1600000, 1700000, 1800000, 1900000,
   2000000, 2100000, 2200000, 2300000, 2400000, 2500000, 2600000, 2700000, 2800000, 2900000,
   3000000, 3100000, 3200000, 3300000, 3400000, 3500000, 3600000, 3700000, 3800000, 3900000,
   4000000, 4100000, 4200000, 4300000, 4400000, 4500000, 4600000, 4700000, 4800000, 4900000,
   5000000, 5100000, 5200000, 5300000, 5400000, 5500000, 5600000, 5700000, 5800000, 5900000,
   6000000, 6100000, 6200000, 6300000, 6400000, 6500000, 6600000, 6700000, 6800000, 6900000,
   7000000, 7100000, 7200000, 7300000, 7400000, 7500000, 7600000, 7700000, 7800000, 7900000,
   8000000, 8100000, 8200000, 8300000, 8400000, 8500000, 8600000, 8700000, 8800000, 8900000,
   9000000, 9100000, 9200000, 9300000, 9400000, 9500000, 9600000, 9700000, 9800000, 9899999,
   10000000, 10100000, 10200000, 10300000, 10400000, 10500000, 10600000, 10700000, 10800000, 10900000,
   11000000, 11100000, 11200000, 11300000, 11400000, 11500000, 11600000, 11700000, 11800000, 11900000,
   12000000, 12100000, 12200000, 12300000, 12400000, 12500000, 12600000, 12700000, 12800000, 12900000,
   13000000, 13100000, 13200000, 13300000, 13400000, 13500000, 13600000, 13700000, 13800000, 13900000,
   14000000, 14100000, 14200000, 14300000, 14400000, 14500000, 14600000, 14700000, 14800000, 14900000,
   15000000, 15100000, 15200000, 15300000, 15400000, 15500000, 15600000, 15700000, 15800000, 15900000,
   16000000, 16100000, 16200000, 16300000, 16400000, 16500000, 16600000, 16700000, 16800000, 16900000,
   17000000, 17100000, 17200000, 17300000, 17400000, 17500000, 17600000, 17700000, 17800000, 17900000,
   18000000, 18100000, 18200000, 18300000, 18400000, 18500000, 18600000, 18700000, 18800000, 18900000,
   19000000, 19100000, 19200000, 19300000, 19400000, 19500000, 19600000, 19700000, 19800000, 19900000,
   20000000, 20100000, 20200000, 20300000, 20400000, 20500000, 20600000, 20700000, 20800000, 20900000,
   21000000, 21100000, 21200000, 21300000, 21400000, 21500000, 21600000, 21700000, 21800000, 21900000,
   22000000, 22100000, 22200000, 22300000, 22400000, 22500000, 22600000, 22700000, 22800000, 22900000,
   23000000, 23100000, 23200000, 23300000, 23400000, 23500000, 23600000, 23700000, 23800000, 23900000,
   24000000, 24100000, 24200000, 24300000, 24400000, 24500000, 24600000, 24700000, 24800000, 24900000,
   25000000, 25100000, 25200000, 25300000, 25400000, 25500000, 25600000, 25700000, 25800000, 25900000,
   26000000, 26100000, 26200000, 26300000, 26400000, 26500000, 26600000, 26700000, 26800000, 26900000,
   27000000, 27100000, 27200000, 27300000, 27400000, 27500000, 27600000, 27700000, 27800000, 27900000,
   28000000, 28100000, 28200000, 28300000, 28400000, 28500000, 28600000, 28700000, 28800000, 28900000,
   29000000, 29100000, 29200000, 29300000, 29400000, 29500000, 29600000, 29700000, 29800000, 29900000,
   30000000, 30100000, 30200000, 30300000, 30400000, 30500000, 30600000, 30700000, 30800000, 30900000,
   31000000, 31100000, 31200000, 31300000, 31400000, 31500000, 31600000, 31700000, 31800000, 31900000,
   32000000, 32100000, 32200000, 32300000, 32400000, 32500000, 32600000, 32700000, 32800000, 32900000,
   33000000, 33100000, 33200000, 33300000, 33400000, 33500000, 33600000, 33700000, 33800000, 33900000,
   34000000, 34100000, 34200000, 34300000, 34400000, 34500000, 34600000, 34700000, 34800000, 34900000,
   35000000, 35100000, 35200000, 35300000, 35400000, 35500000, 35600000, 35700000, 35800000, 35900000,
   36000000, 36100000, 36200000, 36300000, 36400000, 36500000, 36600000, 36700000, 36800000, 36900000,
   37000000, 37100000, 37200000, 37300000, 37400000, 37500000, 37600000, 37700000, 37800000, 37900000,
   38000000, 38100000, 38200000, 38300000, 38400000, 38500000, 38600000, 38700000, 38800000, 38900000,
   39000000, 39100000, 39200000, 39300000, 39400000, 39500000, 39600000, 39700000, 39800000, 39900000,
   40000000, 40100000, 40200000, 40300000, 40400000, 40500000, 40600000, 40700000, 40800000, 40900000,
   41000000, 41100000, 41200000, 41300000, 41400000, 41500000, 41600000, 41700000, 41800000, 41900000,
   42000000, 42100000, 42200000, 42300000, 42400000, 42500000, 42600000, 42700000, 42800000, 42900000,
   43000000, 43100000, 43200000, 43300000, 43400000, 43500000, 43600000, 43700000, 43800000, 43900000,
   44000000, 44100000, 44200000, 44300000, 44400000, 44500000, 44600000, 44700000, 44800000, 44900000,
   45000000, 45100000, 45200000, 45300000, 45400000, 45500000, 45600000, 45700000, 45800000, 45900000,
   46000000, 46100000, 46200000, 46300000, 46400000, 46500000, 46600000, 46700000, 46800000, 46900000,
   47000000, 47100000, 47200000, 47300000, 47400000, 47500000, 47600000, 47700000, 47800000, 47900000,
   48000000, 48100000, 48200000, 48300000, 48400000, 48500000, 48600000, 48700000, 48800000, 48900000,
   49000000, 49100000, 49200000, 49300000, 49400000, 49500000, 49600000, 49700000, 49800000, 49900000,
   50000000, 50100000, 50200000, 50300000, 50400000, 50500000, 50600000, 50700000, 50800000, 50900000,
   51000000, 51100000, 51200000, 51300000, 51400000]

/-- The array `Fnorm` in units of 1e-7 (statdist.c:947-1051). -/
def fnorm : List Nat := [
   5000000, 5039895, 5079783, 5119665, 5159534, 5199389, 5239222, 5279033, 5318813, 5358564,
   5398278, 5437953, 5477583, 5517168, 5556699, 5596176, 5635594, 5674949, 5714238, 5753454,
   5792598, 5831660, 5870644, 5909541, 5948349, 5987062, 6025680, 6064197, 6102611, 6140916,
   6179113, 6217195, 6255157, 6292999, 6330717, 6368306, 6405763, 6443087, 6480271, 6517317,
   6554217, 6590970, 6627572, 6664021, 6700314, 6736447, 6772418, 6808225, 6843864, 6879330,
   6914625, 6949742, 6984682, 7019441, 7054015, 7088404, 7122603, 7156612, 7190428, 7224047,
   7257469, 7290691, 7323712, 7356527, 7389138, 7421539, 7453731, 7485712, 7517478, 7549030,
   7580364, 7611480, 7642375, 7673050, 7703501, 7733727, 7763727, 7793501, 7823045, 7852361,
   7881446, 7910300, 7938920, 7967306, 7995459, 8023375, 8051056, 8078499, 8105704, 8132671,
   8159399, 8185887, 8212136, 8238145, 8263912, 8289438, 8314723, 8339767, 8364569, 8389129,
   8413447, 8437524, 8461357, 8484949, 8508300, 8531409, 8554276, 8576903, 8599288, 8621434,
   8643339, 8665004, 8686431, 8707618, 8728567, 8749280, 8769755, 8789995, 8809998, 8829768,
   8849303, 8868605, 8887675, 8906513, 8925123, 8943502, 8961653, 8979576, 8997273, 9014746,
   9031994, 9049020, 9065824, 9082408, 9098772, 9114919, 9130850, 9146565, 9162066, 9177355,
   9192433, 9207301, 9221961, 9236414, 9250662, 9264707, 9278549, 9292191, 9305633, 9318879,
   9331928, 9344782, 9357445, 9369916, 9382198, 9394292, 9406200, 9417924, 9429466, 9440826,
   9452007, 9463010, 9473839, 9484493, 9494974, 9505285, 9515428, 9525403, 9535214, 9544861,
   9554346, 9563671, 9572838, 9581849, 9590705, 9599409, 9607961, 9616365, 9624621, 9632731,
   9640697, 9648522, 9656205, 9663751, 9671159, 9678433, 9685573, 9692581, 9699460, 9706211,
   9712835, 9719334, 9725711, 9731966, 9738102, 9744120, 9750022, 9755809, 9761483, 9767046,
   9772499, 9777845, 9783084, 9788218, 9793249, 9798179, 9803008, 9807739, 9812373, 9816912,
   9821357, 9825709, 9829971, 9834142, 9838226, 9842225, 9846137, 9849966, 9853714, 9857379,
   9860966, 9864475, 9867907, 9871263, 9874546, 9877756, 9880894, 9883962, 9886962, 9889894,
   9892759, 9895560, 9898296, 9900969, 9903582, 9906133, 9908625, 9911060, 9913437, 9915758,
   9918025, 9920238, 9922398, 9924506, 9926564, 9928572, 9930531, 9932443, 9934309, 9936128,
   9937903, 9939634, 9941322, 9942968, 9944574, 9946138, 9947664, 9949151, 9950600, 9952012,
   9953388, 9954728, 9956035, 9957307, 9958547, 9959754, 9960929, 9962074, 9963188, 9964274,
   9965330, 9966358, 9967359, 9968332, 9969280, 9970202, 9971099, 9971972, 9972820, 9973645,
   9974448, 9975229, 9975988, 9976726, 9977443, 9978140, 9978817, 9979476, 9980115, 9980737,
   9981341, 9981928, 9982498, 9983051, 9983588, 9984111, 9984617, 9985110, 9985587, 9986051,
   9986500, 9986937, 9987361, 9987772, 9988170, 9988557, 9988933, 9989296, 9989649, 9989992,
   9990323, 9990645, 9990957, 9991259, 9991552, 9991836, 9992111, 9992377, 9992636, 9992886,
   9993128, 9993362, 9993590, 9993810, 9994023, 9994229, 9994429, 9994622, 9994809, 9994990,
   9995165, 9995335, 9995499, 9995657, 9995810, 9995959, 9996102, 9996241, 9996375, 9996505,
   9996630, 9996752, 9996868, 9996982, 9997091, 9997197, 9997299, 9997397, 9997492, 9997584,
   9997673, 9997759, 9997842, 9997922, 9997999, 9998074, 9998145, 9998215, 9998282, 9998346,
   9998409, 9998469, 9998527, 9998583, 9998636, 9998689, 9998739, 9998787, 9998834, 9998878,
   9998922, 9998963, 9999003, 9999042, 9999080, 9999115, 9999150, 9999183, 9999216, 9999247,
   9999276, 9999305, 9999332, 9999359, 9999385, 9999409, 9999433, 9999456, 9999477, 9999499,
   9999519, 9999538, 9999557, 9999575, 9999592, 9999609, 9999625, 9999641, 9999655, 9999669,
   9999683, 9999696, 9999709, 9999721, 9999732, 9999744, 9999754, 9999765, 9999775, 9999784,
   9999793, 9999802, 9999810, 9999819, 9999826, 9999834, 9999841, 9999847, 9999854, 9999861,
   9999866, 9999872, 9999878, 9999883, 9999888, 9999893, 9999897, 9999902, 9999906, 9999911,
   9999915, 9999918, 9999922, 9999925, 9999928, 9999932, 9999935, 9999938, 9999940, 9999943,
   9999946, 9999948, 9999951, 9999953, 9999955, 9999957, 9999959, 9999961, 9999962, 9999964,
   9999966, 9999968, 9999969, 9999970, 9999972, 9999973, 9999974, 9999976, 9999977, 9999978,
   9999979, 9999980, 9999981, 9999982, 9999983, 9999983, 9999984, 9999985, 9999986, 9999986,
   9999987, 9999987, 9999988, 9999989, 9999989, 9999990, 9999990, 9999991, 9999991, 9999992,
   9999992, 9999992, 9999993, 9999993, 9999993, 9999994, 9999994, 9999995, 9999995, 9999995,
   9999995, 9999995, 9999996, 9999996, 9999996, 9999996, 9999996, 9999996, 9999997, 9999997,
   9999997, 9999997, 9999998, 9999998, 9999998, 9999998, 9999998, 9999998, 9999998, 9999998,
   9999998, 9999998, 9999998, 9999999, 9999999]

end Verif.Stats
