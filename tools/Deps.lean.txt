import Verif
import Lean
open Lean

def main' : CoreM Unit := do
  let env ← getEnv
  let man ← IO.FS.readFile "/verif/MANIFEST.json"
  let .ok j := Json.parse man | throwError "json"
  let .ok claims := j.getObjValAs? (Array Json) "claims" | throwError "claims"
  let mut thms : Array Name := #[]
  for c in claims do
    let .ok ts := c.getObjValAs? (Array String) "theorems" | throwError "t"
    for t in ts do thms := thms.push t.toName
  let isV (n : Name) : Bool := match env.getModuleIdxFor? n with
    | some i => (`Verif).isPrefixOf (env.header.moduleNames[i.toNat]!)
    | none => false
  let mut out : Std.HashMap Name (Array Name) := {}
  for t in thms do
    let mut seen : NameSet := {}
    let mut todo : Array Name := #[t]
    while todo.size > 0 do
      let n := todo.back!
      todo := todo.pop
      if seen.contains n then continue
      seen := seen.insert n
      match env.find? n with
      | none => pure ()
      | some ci =>
        let mut us := ci.type.getUsedConstants
        if let some v := ci.value? (allowOpaque := true) then us := us ++ v.getUsedConstants
        for u in us do
          if isV u && !seen.contains u then todo := todo.push u
    for n in seen.toList do
      out := out.insert n ((out.getD n #[]).push t)
  let mut res : Array Json := #[]
  for (n, ts) in out.toList do
    let some i := env.getModuleIdxFor? n | continue
    let m := env.header.moduleNames[i.toNat]!
    let r ← findDeclarationRanges? n
    match r with
    | none => pure ()
    | some r =>
      res := res.push (Json.mkObj [("name", toJson n.toString), ("module", toJson m.toString), ("line", toJson r.range.pos.line), ("end", toJson r.range.endPos.line), ("claims", toJson (ts.map toString))])
  IO.FS.writeFile "/tmp/deps.json" (Json.arr res).compress
#eval main'
