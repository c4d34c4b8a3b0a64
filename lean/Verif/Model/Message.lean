import Verif.Model.Basic
import Verif.Model.Str

/-!
# The texts of the errors

`Display` of `/repo/src/error.rs:5-41` for the errors of decoding, written out at the places where they are created.
-/

namespace Toon

/-- The `item_type` arguments of `assert_expected_count` (`/repo/src/decode/decoders.rs:212, 219-224, 266-271, 282, 341-346`). -/
def Counted.text : Counted → Str
  | .inlineItems => "inline array items".toList
  | .rowValues => "tabular row values".toList
  | .rows => "tabular rows".toList
  | .listItems => "list array items".toList

/-- `/repo/src/decode/expand.rs:215-221` `node_type_name`. -/
def NodeKind.text : NodeKind → Str
  | .primitive => "primitive".toList
  | .array => "array".toList
  | .object => "object".toList

/-- `/repo/src/error.rs:12-13`: the prefix of validation errors. -/
def validationText (line : Nat) (message : Str) : Str :=
  "Validation error at line ".toList ++ natDigits line ++ ": ".toList ++ message

/-- The text of a path conflict: `/repo/src/decode/expand.rs:100-103, 149-153, 182-186`. -/
def Conflict.text : Conflict → Str
  | .segment key found => "Path expansion conflict at segment \"".toList ++ key ++ "\": expected object but found ".toList ++ found.text
  | .merge key left right =>
    "Path expansion conflict at key \"".toList ++ key ++ "\": cannot merge ".toList ++ left.text ++ " with ".toList ++ right.text

/-- `Display` of the error (`/repo/src/error.rs:5-41` with the message of the place that creates it).  `none`: the
text contains the text of an error of another crate (`serde_json`, `wasm-bindgen`), the event builder's messages
(`badEvent`, several texts under one constructor, and no input leads there, see C14), or there is no error value
(panics, fuel). -/
def Err.text : Err → Option Str
  | .unterminatedString => some "Unterminated string: missing closing quote".toList                  -- parser.rs:42, 289
  | .trailingChars => some "Unexpected characters after closing quote".toList                        -- parser.rs:291-293
  | .badEscape none => some "Invalid escape sequence: backslash at end of string".toList              -- string_utils.rs:48
  | .badEscape (some c) => some ("Invalid escape sequence: \\".toList ++ [c])                         -- string_utils.rs:56
  | .missingColon => some "Missing colon after key".toList                                           -- parser.rs:314, 334
  | .unterminatedKey => some "Unterminated quoted key".toList                                        -- parser.rs:329
  | .lengthCap n =>                                                                                  -- parser.rs:109-111
    some ("Declared array length ".toList ++ natDigits n ++ " exceeds maximum allowed (100000000)".toList)
  | .tabsInIndent line =>                                                                            -- error.rs:99-101
    some (validationText line "Tabs are not allowed in indentation in strict mode".toList)
  | .badIndent line size found =>
    some (validationText line (
      if size = 0 then                                                                               -- scanner.rs:89-91
        "Indentation not allowed when indent size is 0, but found ".toList ++ natDigits found ++ " spaces".toList
      else                                                                                           -- error.rs:105-112
        "Indentation must be exact multiple of ".toList ++ natDigits size ++ ", but found ".toList ++ natDigits found ++
          " spaces".toList))
  | .countMismatch expected what actual =>                                                           -- validation.rs:19-21
    some ("Expected ".toList ++ natDigits expected ++ ' ' :: what.text ++ ", but got ".toList ++ natDigits actual)
  | .extraItems n => some ("Expected ".toList ++ natDigits n ++ " list array items, but found more".toList)   -- validation.rs:42
  | .extraRows n => some ("Expected ".toList ++ natDigits n ++ " tabular rows, but found more".toList)        -- validation.rs:66
  | .blankLine line table =>                                                                         -- validation.rs:94-97
    some ("Line ".toList ++ natDigits line ++ ": Blank lines inside ".toList ++
      (if table then "tabular array".toList else "list array".toList) ++ " are not allowed in strict mode".toList)
  | .expectedListItem => some "Expected list item".toList                                            -- decoders.rs:377
  | .expectedHyphen => some "Expected list item to start with \"- \"".toList                         -- decoders.rs:388
  | .missingFields => some "Tabular array is missing header fields".toList                           -- decoders.rs:265
  | .pathConflict c => some c.text
  | .expandDepth => some "Path expansion exceeded maximum depth of 256".toList                       -- expand.rs:13-17
  | .badEvent => none
  | .expectedObject => none
  | .jsonParse => none
  | .badOptions => none
  | .panicMissingKey => none
  | .panicNotPrimitive => none
  | .fuel => none

/-- The number of the line that the text names, if it names one. -/
def Err.line : Err → Option Nat
  | .tabsInIndent n => some n
  | .badIndent n _ _ => some n
  | .blankLine n _ => some n
  | _ => none

end Toon
