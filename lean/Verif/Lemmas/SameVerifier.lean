/-
The verifier of a mixed session does not depend on the values of the prover's inputs.
-/
import Verif.Model.MixNet
import Verif.Spec.MixCommit

namespace EmpZk

section
variable {F : Type} [Field F] [BlockField F] [DecidableEq F]

theorem bopR_same (ne : NetEnv F) (s : VerSt F) {o o' : BOp} (h : BOp.same o o') : bopR ne s o = bopR ne s o' := by
  unfold BOp.same at h
  split at h
  · rfl
  · rw [h]

theorem bopsR_same (ne : NetEnv F) {l l' : List BOp} (h : List.Forall₂ BOp.same l l') : ∀ s : VerSt F, bopsR ne s l = bopsR ne s l' := by
  induction h with
  | nil => intro s; rfl
  | cons h1 _ ih => intro s; rw [bopsR, bopsR, bopR_same ne s h1]; congr 1; funext s1; exact ih s1

theorem mopsR_same (me : MixEnv F) {l l' : List MOp} (h : List.Forall₂ MOp.same l l') : ∀ s : MVer F, mopsR me s l = mopsR me s l' := by
  induction h with
  | nil => intro s; rfl
  | @cons o o' l l' h1 _ ih =>
    intro s
    have : mopR me s o = mopR me s o' := by
      unfold MOp.same at h1
      split at h1
      · rw [mopR, mopR, bopR_same me.ne s.b h1]
      · rw [h1]
    rw [mopsR, mopsR, this]; congr 1; funext s1; exact ih s1

theorem mixVerifier_same (me : MixEnv F) {pre pre' : List BOp} {ops ops' : List MOp} {post post' : List BOp} (h1 : List.Forall₂ BOp.same pre pre')
    (h2 : List.Forall₂ MOp.same ops ops') (h3 : List.Forall₂ BOp.same post post') : mixVerifier me pre ops post = mixVerifier me pre' ops' post' := by
  have e2 : (fun s => (mopsR me s ops)) = fun s => mopsR me s ops' := funext (mopsR_same me h2)
  have e3 : (fun s => (bopsR me.ne s post)) = fun s => bopsR me.ne s post' := funext (bopsR_same me.ne h3)
  unfold mixVerifier mixR
  rw [bopsR_same me.ne h1]
  have e2' := congrFun e2
  have e3' := congrFun e3
  simp only [e2', e3']

end
end EmpZk
