/-!
# White space

The 25 code points with the property `White_Space` of Unicode (`PropList.txt`), written out; it is the only table of
character properties that decoding, encoding and the counting of words depend on.
-/

namespace Toon

def whiteSpaceCodes : List Nat :=
  [0x0009, 0x000A, 0x000B, 0x000C, 0x000D, 0x0020, 0x0085, 0x00A0, 0x1680,
   0x2000, 0x2001, 0x2002, 0x2003, 0x2004, 0x2005, 0x2006, 0x2007, 0x2008, 0x2009, 0x200A,
   0x2028, 0x2029, 0x202F, 0x205F, 0x3000]

end Toon
