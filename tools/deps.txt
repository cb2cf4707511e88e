import Verif
import Lean
open Lean
def closure (env : Environment) (n : Name) : Array Name := Id.run do
  let mut seen : NameSet := {}
  let mut todo : Array Name := #[n]
  let mut out : Array Name := #[]
  while !todo.isEmpty do
    let c := todo.back!
    todo := todo.pop
    if seen.contains c then continue
    seen := seen.insert c
    if !(`Verif).isPrefixOf c && !(toString c).startsWith "_private.Verif" then continue
    out := out.push c
    if let some ci := env.find? c then
      for d in ci.getUsedConstantsAsSet.toList do
        unless seen.contains d do todo := todo.push d
  return out
run_cmd do
  let env ← getEnv
  let s ← IO.FS.readFile "/verif/MANIFEST.json"
  let j ← match Json.parse s with | .ok j => pure j | .error e => throwError e
  let cl := (j.getObjVal? "claims").toOption.get!.getArr?.toOption.get!
  let mut names : Std.HashSet String := {}
  for c in cl do
    for t in (c.getObjVal? "theorems").toOption.get!.getArr?.toOption.get! do
      names := names.insert (t.getStr?.toOption.get!)
  let mut res : Array (String × Json) := #[]
  for t in names.toList do
    res := res.push (t, toJson ((closure env t.toName).map toString))
  IO.FS.writeFile "/tmp/mut/deps.json" (Json.mkObj res.toList).compress
