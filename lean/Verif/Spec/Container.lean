import Verif.Common

namespace Smol.Spec

/-- What a recording device holds after a list of requests: `none` wipes it, `some y` records `y`
(other requests do not matter and are not listed). -/
def recorded {α : Type*} : List (Option α) → List α
  | [] => []
  | rs => rs.foldl (fun l r => match r with | none => [] | some y => l ++ [y]) []

/-- `outs` are the outputs of successive stages: stage `i` works on `settings[i]`, starting from
`start` for the first one and from the end of the previous one afterwards. -/
def Stages {α β T : Type*} (work : T → β → List α) (endOf : α → β) :
    List T → β → List (List α) → Prop
  | [], _, outs => outs = []
  | t :: ts, start, outs => ∃ y rest, outs = work t start :: rest ∧
      (work t start).getLast? = some y ∧ Stages work endOf ts (endOf y) rest

end Smol.Spec
