import Verif
import Lean
open Lean
run_cmd do
  let env ← getEnv
  let mut names : Array Name := #[]
  for (n, _) in env.constants.map₁.toList do
    if let .str _ s := n then
      if s.startsWith "C" && (s.length > 3) && ((s.toList.getD 1 'x').isDigit) && ((s.toList.getD 2 'x').isDigit) then
        if let some m := env.getModuleIdxFor? n then
          let mn := env.header.moduleNames[m.toNat]!
          if (toString mn).startsWith "Verif.Props" then
            if (env.find? n).get! matches .thmInfo _ then
              names := names.push n
  for n in names.qsort (fun a b => a.toString < b.toString) do
    let ax ← Lean.Elab.Command.liftCoreM (collectAxioms n)
    IO.println s!"{n}\t{(ax.qsort (fun a b => a.toString < b.toString)).toList}"
