import Verif.Model.Decoder

/-!
# The lines the decoder leaves unread

`decodeLinesRest` is `decodeLines` returning also the lines that are left in the cursor at the end
(`StreamingLineCursor::lines[index..]` in `/repo/src/decode/scanner.rs:140-146`); a lone primitive
leaves nothing.
-/

namespace Toon

variable {F : Type} [F64 F]

def decodeLinesRest (ctx : Ctx) (lines : List Line) : Except Err (List (Ev F) × List Line) :=
  let fuel := 5 * lines.length + 5
  match lines with
  | [] => .ok ([.startObj, .endObj], [])
  | first :: rest => do
    let hdr ← rootHeader first.content
    match hdr with
    | some h =>
      let (evs, cur) ← decodeArray ctx fuel h ⟨rest, some first⟩ 0
      return (evs, cur.rest)
    | none =>
      if rest.isEmpty && !isKeyValueLine first.content then
        let p ← parsePrimitiveToken (F := F) (trim first.content)
        return ([.prim p], [])
      else
        let (evs, cur) ← decodeKV ctx fuel first.content ⟨rest, some first⟩ 0
        let (evs', cur') ← rootLoop ctx fuel cur
        return (.startObj :: evs ++ evs' ++ [.endObj], cur'.rest)

/-- The same from the source lines: the events and how many lines at the end are unread. -/
def decodeStreamUnread (indent : Nat) (strict : Bool) (source : List Str) : Except Err (List (Ev F) × Nat) := do
  let (lines, blanks) ← parseLines indent strict source 0
  let (evs, rest) ← decodeLinesRest ⟨strict, blanks⟩ lines
  return (evs, rest.length)

end Toon
