/-
Tables of /repo/src/base16.cpp, transcribed mechanically. Characters are given by their codes.
-/
namespace Solace

/-- `kBase16Alphabet_l[256][3]`, /repo/src/base16.cpp:49-66: the two characters of each entry (the NUL is not used). -/
def kBase16Alphabet_l : List (Nat × Nat) :=
  [(48, 48), (48, 49), (48, 50), (48, 51), (48, 52), (48, 53), (48, 54), (48, 55),
   (48, 56), (48, 57), (48, 97), (48, 98), (48, 99), (48, 100), (48, 101), (48, 102),
   (49, 48), (49, 49), (49, 50), (49, 51), (49, 52), (49, 53), (49, 54), (49, 55),
   (49, 56), (49, 57), (49, 97), (49, 98), (49, 99), (49, 100), (49, 101), (49, 102),
   (50, 48), (50, 49), (50, 50), (50, 51), (50, 52), (50, 53), (50, 54), (50, 55),
   (50, 56), (50, 57), (50, 97), (50, 98), (50, 99), (50, 100), (50, 101), (50, 102),
   (51, 48), (51, 49), (51, 50), (51, 51), (51, 52), (51, 53), (51, 54), (51, 55),
   (51, 56), (51, 57), (51, 97), (51, 98), (51, 99), (51, 100), (51, 101), (51, 102),
   (52, 48), (52, 49), (52, 50), (52, 51), (52, 52), (52, 53), (52, 54), (52, 55),
   (52, 56), (52, 57), (52, 97), (52, 98), (52, 99), (52, 100), (52, 101), (52, 102),
   (53, 48), (53, 49), (53, 50), (53, 51), (53, 52), (53, 53), (53, 54), (53, 55),
   (53, 56), (53, 57), (53, 97), (53, 98), (53, 99), (53, 100), (53, 101), (53, 102),
   (54, 48), (54, 49), (54, 50), (54, 51), (54, 52), (54, 53), (54, 54), (54, 55),
   (54, 56), (54, 57), (54, 97), (54, 98), (54, 99), (54, 100), (54, 101), (54, 102),
   (55, 48), (55, 49), (55, 50), (55, 51), (55, 52), (55, 53), (55, 54), (55, 55),
   (55, 56), (55, 57), (55, 97), (55, 98), (55, 99), (55, 100), (55, 101), (55, 102),
   (56, 48), (56, 49), (56, 50), (56, 51), (56, 52), (56, 53), (56, 54), (56, 55),
   (56, 56), (56, 57), (56, 97), (56, 98), (56, 99), (56, 100), (56, 101), (56, 102),
   (57, 48), (57, 49), (57, 50), (57, 51), (57, 52), (57, 53), (57, 54), (57, 55),
   (57, 56), (57, 57), (57, 97), (57, 98), (57, 99), (57, 100), (57, 101), (57, 102),
   (97, 48), (97, 49), (97, 50), (97, 51), (97, 52), (97, 53), (97, 54), (97, 55),
   (97, 56), (97, 57), (97, 97), (97, 98), (97, 99), (97, 100), (97, 101), (97, 102),
   (98, 48), (98, 49), (98, 50), (98, 51), (98, 52), (98, 53), (98, 54), (98, 55),
   (98, 56), (98, 57), (98, 97), (98, 98), (98, 99), (98, 100), (98, 101), (98, 102),
   (99, 48), (99, 49), (99, 50), (99, 51), (99, 52), (99, 53), (99, 54), (99, 55),
   (99, 56), (99, 57), (99, 97), (99, 98), (99, 99), (99, 100), (99, 101), (99, 102),
   (100, 48), (100, 49), (100, 50), (100, 51), (100, 52), (100, 53), (100, 54), (100, 55),
   (100, 56), (100, 57), (100, 97), (100, 98), (100, 99), (100, 100), (100, 101), (100, 102),
   (101, 48), (101, 49), (101, 50), (101, 51), (101, 52), (101, 53), (101, 54), (101, 55),
   (101, 56), (101, 57), (101, 97), (101, 98), (101, 99), (101, 100), (101, 101), (101, 102),
   (102, 48), (102, 49), (102, 50), (102, 51), (102, 52), (102, 53), (102, 54), (102, 55),
   (102, 56), (102, 57), (102, 97), (102, 98), (102, 99), (102, 100), (102, 101), (102, 102)]

/-- `kHexToBin[128]`, /repo/src/base16.cpp:69-78. -/
def kHexToBin : List Int :=
  [-1, -1, -1, -1, -1, -1, -1, -1, -1, -1, -1, -1, -1, -1, -1, -1,
   -1, -1, -1, -1, -1, -1, -1, -1, -1, -1, -1, -1, -1, -1, -1, -1,
   -1, -1, -1, -1, -1, -1, -1, -1, -1, -1, -1, -1, -1, -1, -1, -1,
   0, 1, 2, 3, 4, 5, 6, 7, 8, 9, -1, -1, -1, -1, -1, -1,
   -1, 10, 11, 12, 13, 14, 15, -1, -1, -1, -1, -1, -1, -1, -1, -1,
   -1, -1, -1, -1, -1, -1, -1, -1, -1, -1, -1, -1, -1, -1, -1, -1,
   -1, 10, 11, 12, 13, 14, 15, -1, -1, -1, -1, -1, -1, -1, -1, -1,
   -1, -1, -1, -1, -1, -1, -1, -1, -1, -1, -1, -1, -1, -1, -1, -1]

end Solace
