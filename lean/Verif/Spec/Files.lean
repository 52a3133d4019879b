import Verif.Model.Files

/-!
# Specification: what happens between barriers
-/

namespace CrypTen.Files

variable {n : ℕ} {α : Type}

/-- What party `r` did in a trace. -/
def proj (r : Fin n) (t : List (Fin n × Act α)) : List (Act α) := (t.filter fun x => x.1 = r).map Prod.snd

/-- A program made of segments, with a barrier between two of them. -/
def joined : List (List (Act α)) → List (Item α)
  | [] => []
  | [s] => s.map .act
  | s :: t :: l => s.map .act ++ .barrier :: joined (t :: l)

/-- The trace `t` goes through the segments in step: first the parties do all of their first segments, in any interleaving,
then all of their second segments, and so on; in the last of them they may still be on the way. -/
inductive InStep : (Fin n → List (List (Act α))) → List (Fin n × Act α) → Prop
  /-- on the way through the first segments -/
  | within (first : Fin n → List (Act α)) (later : Fin n → List (List (Act α))) (t : List (Fin n × Act α))
      (h : ∀ r, proj r t <+: first r) : InStep (fun r => first r :: later r) t
  /-- through the first segments, and the rest in step -/
  | next (first : Fin n → List (Act α)) (later : Fin n → List (List (Act α))) (t u : List (Fin n × Act α))
      (h : ∀ r, proj r t = first r) (hu : InStep later u) : InStep (fun r => first r :: later r) (t ++ u)

/-- The trace goes through all segments in step, to the end. -/
inductive Complete : (Fin n → List (List (Act α))) → List (Fin n × Act α) → Prop
  /-- the last segments -/
  | last (first : Fin n → List (Act α)) (t : List (Fin n × Act α)) (h : ∀ r, proj r t = first r) :
      Complete (fun r => [first r]) t
  /-- the first segments, and the rest -/
  | next (first : Fin n → List (Act α)) (later : Fin n → List (List (Act α))) (t u : List (Fin n × Act α))
      (h : ∀ r, proj r t = first r) (hu : Complete later u) : Complete (fun r => first r :: later r) (t ++ u)

/-- Nobody has anything left to do. -/
def State.finished (s : State n α) : Prop := ∀ r, s.rest r = []

/-- The messages of all parties in the order of the ranks. -/
def inOrder (message : Fin n → α) : List (Fin n × Act α) := List.ofFn fun r => (r, .print (message r))

end CrypTen.Files
