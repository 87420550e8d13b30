import Verif.Model.CustomBuffer
/-
The protocol between the log and its buffer, over the history of the calls alone (newest first).
-/
namespace Phosphor.Custom

/-- The thread that has chunk `c` of buffer `b`: the last one `getChunk` gave it to, unless it was
handed to `returnChunk` since. -/
def holder : List Call → Nat → Nat → Option Nat
  | [], _, _ => none
  | .getEnd t b' (some c') :: h, b, c => if b' = b ∧ c' = c then some t else holder h b c
  | .retBegin _ b' c' :: h, b, c => if b' = b ∧ c' = c then none else holder h b c
  | _ :: h, b, c => holder h b c

/-- The events added to chunk `c` of buffer `b` since it was last lent. -/
def adds : List Call → Nat → Nat → Nat
  | [], _, _ => 0
  | .getEnd _ b' (some c') :: h, b, c => if b' = b ∧ c' = c then 0 else adds h b c
  | .add _ b' c' :: h, b, c => if b' = b ∧ c' = c then adds h b c + 1 else adds h b c
  | _ :: h, b, c => adds h b c

/-- The buffer inside whose function thread `t` is. -/
def busy : List Call → Nat → Option Nat
  | [], _ => none
  | .getBegin t' b :: h, t => if t' = t then some b else busy h t
  | .retBegin t' b _ :: h, t => if t' = t then some b else busy h t
  | .statsBegin t' b :: h, t => if t' = t then some b else busy h t
  | .getEnd t' _ _ :: h, t => if t' = t then none else busy h t
  | .retEnd t' _ _ :: h, t => if t' = t then none else busy h t
  | .statsEnd t' _ :: h, t => if t' = t then none else busy h t
  | _ :: h, t => busy h t

/-- Buffer `b` has been destroyed. -/
def dead (h : List Call) (b : Nat) : Prop := .destroyed b ∈ h

/-- Buffer `b` does not belong to the log any more. -/
def gone (h : List Call) (b : Nat) : Prop := .handed b ∈ h ∨ .destroyed b ∈ h

/-- The call is allowed after the calls `h`:
* no function of a buffer begins, and no event is added to a chunk of it, once it has been handed
  out or destroyed;
* a buffer is not handed out or destroyed while a thread is inside one of its functions;
* a thread asks for a chunk only when it has none from this buffer;
* a thread gives back, and adds events to, only a chunk it has from this very buffer, and adds no
  more events than fit;
* a chunk is lent to one thread at a time (this is the part of the buffer). -/
def Allowed (h : List Call) : Call → Prop
  | .getBegin t b => ¬ gone h b ∧ busy h t = none ∧ ∀ c, holder h b c ≠ some t
  | .getEnd t b r => busy h t = some b ∧ ¬ gone h b ∧ ∀ c, r = some c → holder h b c = none
  | .retBegin t b c => ¬ gone h b ∧ busy h t = none ∧ holder h b c = some t
  | .retEnd t b _ => busy h t = some b ∧ ¬ gone h b
  | .statsBegin t b => ¬ gone h b ∧ busy h t = none
  | .statsEnd t b => busy h t = some b ∧ ¬ gone h b
  | .add t b c => ¬ gone h b ∧ busy h t = none ∧ holder h b c = some t ∧ adds h b c < chunkSize
  | .handed b => ¬ gone h b ∧ ∀ t, busy h t ≠ some b
  | .destroyed b => ¬ dead h b ∧ ∀ t, busy h t ≠ some b

/-- Every call was allowed when it was made. -/
def Legal : List Call → Prop
  | [] => True
  | c :: h => Allowed h c ∧ Legal h

end Phosphor.Custom
