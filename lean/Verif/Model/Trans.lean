/-
Transition systems: the concurrent parts of ASAGI are modelled as sets of initial states and a
step relation; one step is one atomic action of one thread.
-/
namespace Asagi

/-- States that can be reached from an initial state by any number of steps.
No code of its own; used for all concurrent parts, e.g. sync.h 107-234. -/
inductive Reachable {σ : Type} (init : σ → Prop) (step : σ → σ → Prop) : σ → Prop
  | init {s} : init s → Reachable init step s
  | step {s t} : Reachable init step s → step s t → Reachable init step t

/-- The induction principle used for all invariants. -/
theorem Reachable.invariant {σ : Type} {init : σ → Prop} {step : σ → σ → Prop} {I : σ → Prop}
    (h0 : ∀ s, init s → I s) (h1 : ∀ s t, I s → step s t → I t) {s : σ}
    (h : Reachable init step s) : I s := by
  induction h with
  | init h => exact h0 _ h
  | step _ hs ih => exact h1 _ _ ih hs

/-- Any number of steps. No code of its own; used for all concurrent parts, e.g. sync.h 107-234. -/
inductive Steps {σ : Type} (step : σ → σ → Prop) : σ → σ → Prop
  | refl {s} : Steps step s s
  | tail {s t u} : Steps step s t → step t u → Steps step s u

theorem Steps.reachable {σ : Type} {init : σ → Prop} {step : σ → σ → Prop} {s t : σ}
    (h : Steps step s t) (hs : Reachable init step s) : Reachable init step t := by
  induction h with
  | refl => exact hs
  | tail _ hu ih => exact .step ih hu

/-- Function update (the value of a shared or per-thread variable).
No code of its own: an assignment such as counter.h 134. -/
def upd {κ β : Type} [DecidableEq κ] (f : κ → β) (k : κ) (v : β) : κ → β :=
  fun x => if x = k then v else f x

@[simp] theorem upd_self {κ β : Type} [DecidableEq κ] (f : κ → β) (k : κ) (v : β) :
    upd f k v k = v := by simp [upd]

theorem upd_ne {κ β : Type} [DecidableEq κ] (f : κ → β) {k x : κ} (v : β) (h : x ≠ k) :
    upd f k v x = f x := by simp [upd, h]

theorem upd_apply {κ β : Type} [DecidableEq κ] (f : κ → β) (k x : κ) (v : β) :
    upd f k v x = if x = k then v else f x := rfl

end Asagi
