/-!
# Tables of known letter pairs of sclite's language profiles (src/sclite/text.c:8-348)
-/
set_option autoImplicit false
namespace Verif.Text

/-- `KCC_babel_turkish`, src/sclite/text.c:9-13: pairs of upper and lower code points. -/
def turkish : List (Nat × Nat) := [
  (0xC7, 0xE7), (0xD6, 0xF6), (0xDC, 0xFC), (0x130, 0x69), (0x49, 0x131), (0x11E, 0x11F),
  (0x15E, 0x15F)]

/-- `KCC_babel_lithuanian`, src/sclite/text.c:15-26: pairs of upper and lower code points. -/
def lithuanian : List (Nat × Nat) := [
  (0x104, 0x105), (0x10C, 0x10D), (0x118, 0x119), (0x116, 0x117), (0x12E, 0x12F), (0x160, 0x161),
  (0x172, 0x173), (0x16A, 0x16B), (0x17D, 0x17E)]

/-- `KCC_babel_kurmanji`, src/sclite/text.c:28-35: pairs of upper and lower code points. -/
def kurmanji : List (Nat × Nat) := [
  (0xC7, 0xE7), (0xCA, 0xEA), (0xCE, 0xEE), (0xDB, 0xFB), (0x15E, 0x15F)]

/-- `KCC_babel_cebuano`, src/sclite/text.c:37-40: pairs of upper and lower code points. -/
def cebuano : List (Nat × Nat) := [
  (0xD1, 0xF1)]

/-- `KCC_babel_kazakh`, src/sclite/text.c:42-86: pairs of upper and lower code points. -/
def kazakh : List (Nat × Nat) := [
  (0x410, 0x430), (0x4D8, 0x4D9), (0x411, 0x431), (0x412, 0x432), (0x413, 0x433), (0x492, 0x493),
  (0x414, 0x434), (0x415, 0x435), (0x401, 0x451), (0x416, 0x436), (0x417, 0x437), (0x418, 0x438),
  (0x419, 0x439), (0x41A, 0x43A), (0x49A, 0x49B), (0x41B, 0x43B), (0x41C, 0x43C), (0x41D, 0x43D),
  (0x4A2, 0x4A3), (0x41E, 0x43E), (0x4E8, 0x4E9), (0x41F, 0x43F), (0x420, 0x440), (0x421, 0x441),
  (0x422, 0x442), (0x423, 0x443), (0x4B0, 0x4B1), (0x4AE, 0x4AF), (0x424, 0x444), (0x425, 0x445),
  (0x4BA, 0x4BB), (0x426, 0x446), (0x427, 0x447), (0x428, 0x448), (0x429, 0x449), (0x42A, 0x44A),
  (0x42B, 0x44B), (0x406, 0x456), (0x42C, 0x44C), (0x42D, 0x44D), (0x42E, 0x44E), (0x42F, 0x44F)]

/-- `KCC_babel_mongolian`, src/sclite/text.c:89-126: pairs of upper and lower code points. -/
def mongolian : List (Nat × Nat) := [
  (0x401, 0x451), (0x410, 0x430), (0x411, 0x431), (0x412, 0x432), (0x413, 0x433), (0x414, 0x434),
  (0x415, 0x435), (0x416, 0x436), (0x417, 0x437), (0x418, 0x438), (0x419, 0x439), (0x41A, 0x43A),
  (0x41B, 0x43B), (0x41C, 0x43C), (0x41D, 0x43D), (0x41E, 0x43E), (0x41F, 0x43F), (0x420, 0x440),
  (0x421, 0x441), (0x422, 0x442), (0x423, 0x443), (0x424, 0x444), (0x425, 0x445), (0x426, 0x446),
  (0x427, 0x447), (0x428, 0x448), (0x429, 0x449), (0x42A, 0x44A), (0x42B, 0x44B), (0x42C, 0x44C),
  (0x42D, 0x44D), (0x42E, 0x44E), (0x42F, 0x44F), (0x4AE, 0x4AF), (0x4E8, 0x4E9)]

/-- `KCC_babel_vietnamese`, src/sclite/text.c:128-203: pairs of upper and lower code points. -/
def vietnamese : List (Nat × Nat) := [
  (0x110, 0x111), (0xC1, 0xE1), (0xC0, 0xE0), (0x1EA2, 0x1EA3), (0xC3, 0xE3), (0x1EA0, 0x1EA1),
  (0x102, 0x103), (0x1EAE, 0x1EAF), (0x1EB0, 0x1EB1), (0x1EB2, 0x1EB3), (0x1EB4, 0x1EB5), (0x1EB6, 0x1EB7),
  (0xC2, 0xE2), (0x1EA4, 0x1EA5), (0x1EA6, 0x1EA7), (0x1EA8, 0x1EA9), (0x1EAA, 0x1EAB), (0x1EAC, 0x1EAD),
  (0xC9, 0xE9), (0xC8, 0xE8), (0x1EBA, 0x1EBB), (0x1EBC, 0x1EBD), (0x1EB8, 0x1EB9), (0xCA, 0xEA),
  (0x1EBE, 0x1EBF), (0x1EC0, 0x1EC1), (0x1EC2, 0x1EC3), (0x1EC4, 0x1EC5), (0x1EC6, 0x1EC7), (0xCD, 0xED),
  (0xCC, 0xEC), (0x1EC8, 0x1EC9), (0x128, 0x129), (0x1ECA, 0x1ECB), (0xD3, 0xF3), (0xD2, 0xF2),
  (0x1ECE, 0x1ECF), (0xD5, 0xF5), (0x1ECC, 0x1ECD), (0x1A0, 0x1A1), (0x1EDA, 0x1EDB), (0x1EDC, 0x1EDD),
  (0x1EDE, 0x1EDF), (0x1EE0, 0x1EE1), (0x1EE2, 0x1EE3), (0xD4, 0xF4), (0x1ED0, 0x1ED1), (0x1ED2, 0x1ED3),
  (0x1ED4, 0x1ED5), (0x1ED6, 0x1ED7), (0x1ED8, 0x1ED9), (0xDA, 0xFA), (0xD9, 0xF9), (0x1EE6, 0x1EE7),
  (0x168, 0x169), (0x1EE4, 0x1EE5), (0x1AF, 0x1B0), (0x1EE8, 0x1EE9), (0x1EEA, 0x1EEB), (0x1EEC, 0x1EED),
  (0x1EEE, 0x1EEF), (0x1EF0, 0x1EF1), (0xDD, 0xFD), (0x1EF2, 0x1EF3), (0x1EF6, 0x1EF7), (0x1EF8, 0x1EF9),
  (0x1EF4, 0x1EF5)]

/-- `KCC_babel_guarani`, src/sclite/text.c:206-221: pairs of upper and lower code points. -/
def guarani : List (Nat × Nat) := [
  (0xC3, 0xE3), (0xC1, 0xE1), (0x1EBC, 0x1EBD), (0xC9, 0xE9), (0x128, 0x129), (0xCD, 0xED),
  (0xD5, 0xF5), (0xD3, 0xF3), (0x168, 0x169), (0xDA, 0xFA), (0x1EF8, 0x1EF9), (0xDD, 0xFD),
  (0xD1, 0xF1)]

/-- `KCC_ukrainian`, src/sclite/text.c:223-348: pairs of upper and lower code points. -/
def ukrainian : List (Nat × Nat) := [
  (0x410, 0x430), (0x4D0, 0x4D1), (0x4D2, 0x4D3), (0x4BC, 0x4BD), (0x4BE, 0x4BF), (0x4E0, 0x4E1),
  (0x4A8, 0x4A9), (0x4E8, 0x4E9), (0x4EA, 0x4EB), (0x4A0, 0x4A1), (0x411, 0x431), (0x46A, 0x46B),
  (0x406, 0x456), (0x427, 0x447), (0x4B6, 0x4B7), (0x4F4, 0x4F5), (0x4B8, 0x4B9), (0x414, 0x434),
  (0x402, 0x452), (0x405, 0x455), (0x40F, 0x45F), (0x42D, 0x44D), (0x4EC, 0x4ED), (0x424, 0x444),
  (0x41B, 0x43B), (0x4C5, 0x4C6), (0x41C, 0x43C), (0x4CD, 0x4CE), (0x41D, 0x43D), (0x4A2, 0x4A3),
  (0x4C7, 0x4C8), (0x4C9, 0x4CA), (0x420, 0x440), (0x48E, 0x48F), (0x421, 0x441), (0x4AA, 0x4AB),
  (0x472, 0x473), (0x413, 0x433), (0x4F6, 0x4F7), (0x494, 0x495), (0x492, 0x493), (0x4FA, 0x4FB),
  (0x490, 0x491), (0x403, 0x453), (0x425, 0x445), (0x4B2, 0x4B3), (0x4FC, 0x4FD), (0x4FE, 0x4FF),
  (0x42A, 0x44A), (0x418, 0x438), (0x4E4, 0x4E5), (0x40D, 0x45D), (0x4E2, 0x4E3), (0x415, 0x435),
  (0x4D6, 0x4D7), (0x400, 0x450), (0x401, 0x451), (0x46C, 0x46D), (0x464, 0x465), (0x468, 0x469),
  (0x474, 0x475), (0x476, 0x477), (0x408, 0x458), (0x41A, 0x43A), (0x49A, 0x49B), (0x4C3, 0x4C4),
  (0x49E, 0x49F), (0x49C, 0x49D), (0x4CB, 0x4CC), (0x40C, 0x45C), (0x480, 0x481), (0x46E, 0x46F),
  (0x466, 0x467), (0x409, 0x459), (0x40A, 0x45A), (0x41E, 0x43E), (0x4E6, 0x4E7), (0x460, 0x461),
  (0x47C, 0x47D), (0x47E, 0x47F), (0x41F, 0x43F), (0x4A6, 0x4A7), (0x470, 0x471), (0x47A, 0x47B),
  (0x4D8, 0x4D9), (0x4DA, 0x4DB), (0x48C, 0x48D), (0x428, 0x448), (0x429, 0x449), (0x4BA, 0x4BB),
  (0x419, 0x439), (0x48A, 0x48B), (0x40E, 0x45E), (0x42C, 0x44C), (0x4AE, 0x4AF), (0x4B0, 0x4B1),
  (0x422, 0x442), (0x4AC, 0x4AD), (0x426, 0x446), (0x40B, 0x45B), (0x423, 0x443), (0x4F0, 0x4F1),
  (0x4F2, 0x4F3), (0x4EE, 0x4EF), (0x478, 0x479), (0x404, 0x454), (0x412, 0x432), (0x42F, 0x44F),
  (0x462, 0x463), (0x42B, 0x44B), (0x4F8, 0x4F9), (0x407, 0x457), (0x42E, 0x44E), (0x417, 0x437),
  (0x498, 0x499), (0x4DE, 0x4DF), (0x416, 0x436), (0x4C1, 0x4C2), (0x496, 0x497), (0x4DC, 0x4DD),
  (0x4D4, 0x4D5), (0x4A4, 0x4A5), (0x4B4, 0x4B5)]

/-- `TEXT_LANG_PROFILE`, src/sclite/text.h:18. -/
inductive Profile where
  | generic | turkish | vietnamese | lithuanian | kurmanji | cebuano | kazakh | mongolian | guarani | ukrainian
  deriving Repr, DecidableEq

/-- The table searched by `getKnownUFTCaseCP` for a profile, src/sclite/text.c:1039-1107; no table for the generic one. -/
def Profile.table : Profile → List (Nat × Nat)
  | .generic => []
  | .turkish => Text.turkish
  | .vietnamese => Text.vietnamese
  | .lithuanian => Text.lithuanian
  | .kurmanji => Text.kurmanji
  | .cebuano => Text.cebuano
  | .kazakh => Text.kazakh
  | .mongolian => Text.mongolian
  | .guarani => Text.guarani
  | .ukrainian => Text.ukrainian

end Verif.Text
