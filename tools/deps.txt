import Lean
import Verif
/-! Prints, for every theorem `Flu.Cnn_*`, one line: name TAB axioms TAB the declarations of this project it depends on. -/
open Lean
partial def collect (env : Environment) (n : Name) (seen : NameSet) : NameSet := Id.run do
  if seen.contains n then return seen
  unless (`Flu).isPrefixOf n do return seen
  let mut seen := seen.insert n
  match env.find? n with
  | some ci =>
    for c in (ci.type.getUsedConstantsAsSet.toList ++ (match ci.value? (allowOpaque := true) with | some v => v.getUsedConstantsAsSet.toList | none => [])) do
      seen := collect env c seen
    return seen
  | none => return seen
run_cmd do
  let env ← getEnv
  let mut out := ""
  for (n, ci) in env.constants.map₁.toList do
    if (`Flu).isPrefixOf n && ci.isTheorem && (n.getString!.startsWith "C") && n.components.length == 2 then
      let ax ← Lean.collectAxioms n
      let deps := (collect env n {}).toList
      out := out ++ s!"{n}\t{ax.toList}\t{deps}\n"
  IO.FS.writeFile "/tmp/deps.txt" out
