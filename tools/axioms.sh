#!/bin/sh
# Prints, for every theorem named Cnn_..., the axioms it depends on (run after `lake build`).
# With the argument `deps` it prints instead the declarations of this project each theorem rests on.
cd "$(dirname "$0")/../lean" || exit 1
T=$(mktemp --suffix=.lean)
cat > "$T" <<'L'
import Verif
import Lean
open Lean
def isC (n : Name) : Bool := match n.getString! with
  | s => s.length > 3 && s.startsWith "C" && (s.drop 1).front.isDigit
partial def reach (env : Environment) (ours : Name → Bool) : List Name → NameSet → NameSet
  | [], s => s
  | n :: rest, s =>
    if s.contains n then reach env ours rest s else
      match env.find? n with
      | none => reach env ours rest s
      | some ci =>
        let used := ci.getUsedConstantsAsSet.toList.filter ours
        reach env ours (used ++ rest) (s.insert n)
run_cmd do
  let env ← getEnv
  let ours : Name → Bool := fun n => match env.getModuleIdxFor? n with
    | some i => (`Verif).isPrefixOf env.header.moduleNames[i.toNat]!
    | none => false
  let mode := (← IO.getEnv "DEPS").isSome
  for (n, ci) in env.constants.toList do
    if ours n && !n.isInternal && n.isStr && isC n then
      if let .thmInfo _ := ci then
        if mode then
          let r := reach env ours [n] {}
          IO.println s!"{n} {r.toList}"
        else
          let ax ← Elab.Command.liftCoreM (collectAxioms n)
          IO.println s!"{n} {ax.toList}"
L
[ "$1" = deps ] && export DEPS=1
lake env lean "$T" | sort
rm -f "$T"
