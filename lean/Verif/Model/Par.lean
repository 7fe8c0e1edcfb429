/-
Two parties that run several threads each and are connected by several channels (`IO **ios`, emp-vole/mpfss_reg.h:19-21): thread `i` of a
phase uses channel `i` of its own, with one byte stream in each direction (`Verif.Model.Proc`). A phase begins when all threads are started
(`pool->enqueue`, the last one runs in the calling thread) and ends when all have been waited for (`f.get()`); what the calling thread
does between two such places is a phase whose only thread uses channel 0.
-/
import Verif.Model.Proc
import Mathlib.Logic.Function.Basic

namespace EmpZk

/-- A party with `T` channels: it has returned, has performed an undefined operation, or runs a phase of threads and goes on with what
they return (mpfss_reg.h:98-134). -/
inductive Par (T : Nat) (α : Type) : Type 1 where
  | done (a : α)
  | fail
  | run {β : Type} (ps : Fin T → Proc β) (k : (Fin T → β) → Par T α)

namespace Par

/-- A computation without communication; `none` is an undefined operation (e.g. vole_triple.h:124). -/
def ofOpt {T : Nat} {α : Type} : Option α → Par T α
  | some a => .done a
  | none => .fail

/-- Statements one after the other (e.g. vole_triple.h:121-124). -/
def bind {T : Nat} {α γ : Type} : Par T α → (α → Par T γ) → Par T γ
  | .done a, f => f a
  | .fail, _ => .fail
  | .run ps k, f => .run ps (fun r => (k r).bind f)

/-- What the calling thread does alone; it uses `netio`, which is channel 0 (mpfss_reg.h:34, 85-96, 187-236). -/
def one {T : Nat} {α : Type} (p : Proc α) : Par (T + 1) α :=
  .run (β := Option α) (fun i => if i = 0 then p.bind (fun a => .done (some a)) else .done none)
    (fun r => ofOpt (r 0))

end Par

/-- Both parties and the bytes on their way, by channel: `pq` from the first to the second, `qp` back (mpfss_reg.h:19-21). -/
structure ParDuo (T : Nat) (α β : Type) where
  p : Par T α
  q : Par T β
  pq : Fin T → List Byte
  qp : Fin T → List Byte

/-- One step: of a thread of either party, or the end of a phase of either party, when all its threads have returned
(mpfss_reg.h:98-134). The threads run concurrently. -/
inductive ParDuo.Step {T : Nat} {α β : Type} : ParDuo T α β → ParDuo T α β → Prop where
  | thP {γ : Type} {ps : Fin T → Proc γ} {k : (Fin T → γ) → Par T α} {q : Par T β} {pq qp : Fin T → List Byte} (i : Fin T)
      {d : Duo γ Unit} (h : (⟨ps i, .done (), pq i, qp i⟩ : Duo γ Unit).stepP = some d) :
      Step ⟨.run ps k, q, pq, qp⟩ ⟨.run (Function.update ps i d.p) k, q, Function.update pq i d.pq, Function.update qp i d.qp⟩
  | thQ {γ : Type} {qs : Fin T → Proc γ} {k : (Fin T → γ) → Par T β} {p : Par T α} {pq qp : Fin T → List Byte} (i : Fin T)
      {d : Duo Unit γ} (h : (⟨.done (), qs i, pq i, qp i⟩ : Duo Unit γ).stepQ = some d) :
      Step ⟨p, .run qs k, pq, qp⟩ ⟨p, .run (Function.update qs i d.q) k, Function.update pq i d.pq, Function.update qp i d.qp⟩
  | joinP {γ : Type} {ps : Fin T → Proc γ} {k : (Fin T → γ) → Par T α} {q : Par T β} {pq qp : Fin T → List Byte} (r : Fin T → γ)
      (h : ∀ i, ps i = .done (r i)) : Step ⟨.run ps k, q, pq, qp⟩ ⟨k r, q, pq, qp⟩
  | joinQ {γ : Type} {qs : Fin T → Proc γ} {k : (Fin T → γ) → Par T β} {p : Par T α} {pq qp : Fin T → List Byte} (r : Fin T → γ)
      (h : ∀ i, qs i = .done (r i)) : Step ⟨p, .run qs k, pq, qp⟩ ⟨p, k r, pq, qp⟩

/-- `n` steps, in any order (mpfss_reg.h:98-134). -/
inductive ParDuo.Reach {T : Nat} {α β : Type} : Nat → ParDuo T α β → ParDuo T α β → Prop where
  | refl (c) : Reach 0 c c
  | step {n c c' f} (h : ParDuo.Step c c') (t : Reach n c' f) : Reach (n + 1) c f

/-- Before the first message nothing is on its way (mpfss_reg.h:19-21). -/
def ParDuo.start {T : Nat} {α β : Type} (P : Par T α) (Q : Par T β) : ParDuo T α β := ⟨P, Q, fun _ => [], fun _ => []⟩

end EmpZk
