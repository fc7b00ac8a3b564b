import Verif.Props.NNet
import Verif.Props.Optim

/-! C39: what training does with a network whose layers do not fit the inputs. -/

namespace RM
open Outcome Scalar Spec
variable {F : Type} [Scalar F]

theorem netForward_misfit {w : List F} {l : NetLayer F} {post : List (NetLayer F)} (X : Mat F) :
    ∀ (pre : List (NetLayer F)) (index n c d : ℕ) (acts ps : List (Mat F)), HasShape (acts.getLast?.getD X) n c →
    LinesUp pre c d → ¬layerFits l d → index + totalParams (pre ++ l :: post) ≤ w.length → netForward w X (pre ++ l :: post) index acts ps = Outcome.panic
  | [], index, n, c, d, acts, ps, hX, h, hf, hw => by
    cases h
    rw [List.nil_append, totalParams_cons] at hw
    obtain ⟨P, hP⟩ := slice_exists (w := w) (start := index) (l := l) (by omega)
    simp only [List.nil_append, netForward, hP, ok_bind, forward_misfit hX hP hf]
    rfl
  | l' :: pre, index, n, c, d, acts, ps, hX, h, hf, hw => by
    rw [List.cons_append, totalParams_cons] at hw
    obtain ⟨h1, h2⟩ := LinesUp_cons.mp h
    obtain ⟨P, hP⟩ := slice_exists (w := w) (start := index) (l := l') (by omega)
    simp only [List.cons_append, netForward, hP, ok_bind, forward_ok hX hP h1, Outcome.unwrap]
    exact netForward_misfit X pre _ n _ d _ _ (by simpa using map_shape hX _ fun x hx => layerRow_length hx) h2 hf (by omega)

/-- **C39 (training on inputs that do not fit).** Where `predict` reports an error - a layer that does not take the width produced by the
layers before it, or the width of the inputs - the gradient panics, and so does training: by gradient descent with at least one
iteration, and by the stochastic optimisers with at least one iteration and one sample. -/
theorem C39_training (net : BaseNet F) {n c : ℕ} (X T : Mat F) (hX : HasShape X n c) (hw : net.weights.length = totalParams net.layers)
    (pre : List (NetLayer F)) (k o d : ℕ) (bias : Bool) (rest : List (NetLayer F)) (hl : net.layers = pre ++ .linear k o bias :: rest)
    (hpre : LinesUp pre c d) (hne : (if bias then d + 1 else d) ≠ k) :
    (∀ w : List F, w.length = totalParams net.layers → net.computeGrad w X T = Outcome.panic) ∧
    (∀ opt : GradientDesc F, 0 < opt.iters → net.train (fun g s X T => (opt.optimize (fun w => g w X T) s).out) X T = Outcome.panic) ∧
    (0 < n → T.rows.length = n → ∀ r : ℕ → ℕ → ℕ,
      (∀ opt : StochasticGD F, 0 < opt.iters → net.train (fun g s X T => (opt.optimize g r s X T).out) X T = Outcome.panic) ∧
      (∀ opt : AdaGrad F, 0 < opt.iters → net.train (fun g s X T => (opt.optimize g r s X T).out) X T = Outcome.panic) ∧
      (∀ opt : RMSProp F, 0 < opt.iters → net.train (fun g s X T => (opt.optimize g r s X T).out) X T = Outcome.panic)) := by
  have key : ∀ (w : List F) (m : ℕ) (X T : Mat F), HasShape X m c → w.length = totalParams net.layers → net.computeGrad w X T = Outcome.panic := by
    intro w m X T hX hw
    unfold BaseNet.computeGrad
    rw [hl] at hw ⊢
    rw [netForward_misfit (l := .linear k o bias) X pre 0 m c d [] [] hX hpre hne (by omega)]
    rfl
  have hst : ∀ (upd : List F → List F → List F → Outcome (List F × List F)) (iters : ℕ) (r : ℕ → ℕ → ℕ), 0 < n → T.rows.length = n → 0 < iters →
      (stochOptimize upd iters net.computeGrad r net.weights X T).out = Outcome.panic := by
    intro upd iters r hn hT hi
    obtain ⟨i, rfl⟩ := Nat.exists_eq_succ_of_ne_zero hi.ne'
    obtain ⟨order, ho, hp⟩ := exists_orders r X.rows.length
    have h0 := ho 0
    rw [prevOrder] at h0
    rw [stochOptimize, stochLoop, h0, Logged.lift_ok_bind]
    have hlen : (order 0).length = n := by rw [(hp 0).length_eq, List.length_range, hX.1]
    obtain ⟨j, is, hj⟩ := List.exists_cons_of_length_pos (hlen ▸ hn)
    have hjn : j < n := by
      have : j ∈ order 0 := by simp [hj]
      rw [← hX.1]
      exact List.mem_range.1 ((hp 0).mem_iff.1 this)
    have hx : X.selectRows [j] = ok ⟨X.cols, [X.rows[j]'(by rw [hX.1]; exact hjn)]⟩ := by
      simp [Mat.selectRows, getAt, ofOption, hX.1, hjn]
    have hy : T.selectRows [j] = ok ⟨T.cols, [T.rows[j]'(by rw [hT]; exact hjn)]⟩ := by
      simp [Mat.selectRows, getAt, ofOption, hT, hjn]
    rw [hj, stochPass, hx, Logged.lift_ok_bind, hy, Logged.lift_ok_bind]
    have hg := key net.weights 1 ⟨X.cols, [X.rows[j]'(by rw [hX.1]; exact hjn)]⟩ ⟨T.cols, [T.rows[j]'(by rw [hT]; exact hjn)]⟩ ⟨rfl, hX.2.1, by intro q hq; simp at hq; rw [hq]; exact hX.2.2 _ (List.getElem_mem _)⟩ hw
    simp only [hg]
    rfl
  refine ⟨fun w hw => key w n X T hX hw, ?_, fun hn hT r => ⟨?_, ?_, ?_⟩⟩
  · intro opt hi
    obtain ⟨i, hi⟩ := Nat.exists_eq_succ_of_ne_zero hi.ne'
    unfold BaseNet.train GradientDesc.optimize
    simp only [hi, gdLoop, key _ n X T hX hw]
    rfl
  · intro opt hi
    unfold BaseNet.train StochasticGD.optimize
    simp only [hst _ _ r hn hT hi]
    rfl
  · intro opt hi
    unfold BaseNet.train AdaGrad.optimize
    simp only [hst _ _ r hn hT hi]
    rfl
  · intro opt hi
    unfold BaseNet.train RMSProp.optimize
    simp only [hst _ _ r hn hT hi]
    rfl

/-- Non-vacuity of C39: a layer for inputs of width 2, trained on inputs of width 1. -/
example (r : ℕ → ℕ → ℕ) :
    (⟨[.new 2 1], [Scalar.one, Scalar.one, Scalar.one], ⟨.mse, .none⟩⟩ : BaseNet F).train (fun g s X T => (StochasticGD.default.optimize g r s X T).out)
      ⟨1, [[Scalar.one]]⟩ ⟨1, [[Scalar.one]]⟩ = Outcome.panic :=
  ((C39_training _ (n := 1) (c := 1) _ _ ⟨rfl, rfl, by simp⟩ rfl [] 3 1 1 true [] rfl (.nil 1) (by simp)).2.2 (by norm_num) rfl r).1 _ (by simp [StochasticGD.default])

end RM
