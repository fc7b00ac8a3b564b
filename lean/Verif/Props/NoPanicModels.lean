import Verif.Props.NoPanic
import Verif.Model.NNet
import Verif.Model.Gmm
import Verif.Proofs.Reservoir
import Verif.Proofs.NoErr

/-! C87, continued: generalised linear models, kernels, support vector machines, Gaussian processes, naive Bayes, nearest
neighbours, principal components, transformers. -/

namespace RM
open Outcome Scalar Spec

variable {F : Type} [Scalar F]

/-! ### Generalised linear models -/

theorem diagMat_shape {d : List F} {n : ℕ} (h : d.length = n) : HasShape (diagMat d) n n := by
  refine ⟨by simp [diagMat, h], h, ?_⟩
  intro r hr
  obtain ⟨i, _, rfl⟩ := List.mem_map.mp hr
  simp [h]

/-- Enough weights for `n` rows (only the binomial family has weights). -/
def EnoughWeights (f : Family F) (n : ℕ) : Prop := ∀ ws, f = .binomial ws → n ≤ ws.length

theorem workingWeight_safe {f : Family F} {mu : List F} {n : ℕ} (hf : EnoughWeights f n) (hm : mu.length = n) :
    Safe (fun w => w.length = n) (f.workingWeight mu) := by
  cases f with
  | binomial ws =>
    have h := hf ws rfl
    unfold Family.workingWeight
    simp only
    rw [if_pos (by omega)]
    show (List.zipWith _ _ _).length = n
    simp
    omega
  | bernoulli => show (List.map _ _).length = n; simpa using hm
  | normal => show (List.map _ _).length = n; simpa using hm
  | poisson => exact hm

/-- The outcome does not crash, unless it panics for the reason `bad`. -/
def Spec.SafeUnless {α : Type} (bad : Prop) (P : α → Prop) (o : Outcome α) : Prop := Safe P o ∨ (o = Outcome.panic ∧ bad)

theorem Spec.SafeUnless.bind {α β : Type} {bad : Prop} {P : α → Prop} {Q : β → Prop} {o : Outcome α} {f : α → Outcome β} (h : SafeUnless bad P o)
    (hf : ∀ a, o = ok a → P a → SafeUnless bad Q (f a)) : SafeUnless bad Q (o >>= f) := by
  rcases h with h | ⟨rfl, hb⟩
  · cases o with
    | ok a => exact hf a rfl h
    | err e => exact Or.inl trivial
    | panic => exact h.elim
    | ub => exact h.elim
  · exact Or.inr ⟨rfl, hb⟩

theorem Spec.SafeUnless.expect {α : Type} {bad : Prop} {P : α → Prop} {o : Outcome α} (h : Safe P o) (hb : ∀ e, o = err e → bad) :
    SafeUnless bad P (expectOk o) := by
  cases o with
  | ok a => exact Or.inl h
  | err e => exact Or.inr ⟨rfl, hb e rfl⟩
  | panic => exact h.elim
  | ub => exact h.elim

/-- The inverse fails on the weighted Gram matrix at the means `mu`. -/
def Spec.NoInverseAt (inverse : Mat F → Outcome (Mat F)) (f : Family F) (full : Mat F) (mu : List F) : Prop :=
  ∃ w P A e, f.workingWeight mu = ok w ∧ full.transpose.mul (diagMat w) = ok P ∧ P.mul full = ok A ∧ inverse A = err e

theorem irlsStep_safe {inverse : Mat F → Outcome (Mat F)} {m n : ℕ} (hi : SafeSquare inverse) {f : Family F} (hf : EnoughWeights f n)
    {full : Mat F} (hF : HasShape full n m) {y mu z : List F} (hy : y.length = n) (hm : mu.length = n) (hz : z.length = n) :
    SafeUnless (NoInverseAt inverse f full mu) (fun r => r.1.length = n ∧ r.2.length = m) (irlsStep inverse f full full.transpose y mu z) := by
  unfold irlsStep
  refine .bind (.inl (workingWeight_safe hf hm)) fun w ew hw => .bind (.inl (Safe.vecZip hy hm)) fun yb _ hyb =>
    .bind (.inl (Safe.mul (HasShape.transpose hF) (diagMat_shape hw))) fun xtw ex hx => .bind (.inl (Safe.mul hx hF)) fun a ea ha =>
    .bind (.expect (hi a m ha) fun e he => ⟨w, xtw, a, e, ew, ex, ea, he⟩) fun B _ hB => .inl ?_
  exact Safe.bind (Safe.mul hB hx) fun t ht => Safe.bind (Safe.mulVec ht hz) fun b hb => ⟨hyb, hb⟩

theorem Spec.SafeUnless.weaken {α : Type} {bad bad' : Prop} {P : α → Prop} {o : Outcome α} (h : SafeUnless bad P o) (hb : bad → bad') :
    SafeUnless bad' P o := h.imp id fun ⟨a, b⟩ => ⟨a, hb b⟩

theorem irlsLoop_safe {inverse : Mat F → Outcome (Mat F)} {m n : ℕ} (hi : SafeSquare inverse) {f : Family F} (hf : EnoughWeights f n)
    {full : Mat F} (hF : HasShape full n m) {y : List F} (hy : y.length = n) (mu0 : List F) :
    ∀ (iters : ℕ) (mu z beta : List F), mu.length = n → z.length = n →
      beta.length = m → (mu = mu0 ∨ ∃ b s, b.length = m ∧ full.mulVec b = ok s ∧ mu = s.map f.link.funcInv) →
      SafeUnless (∃ mu, (mu = mu0 ∨ ∃ b s, b.length = m ∧ full.mulVec b = ok s ∧ mu = s.map f.link.funcInv) ∧ NoInverseAt inverse f full mu)
        (fun b => b.length = m) (irlsLoop inverse f full full.transpose y iters mu z beta)
  | 0, _, _, _, _, _, hb, _ => .inl hb
  | iters + 1, mu, z, beta, hm, hz, hb, hr => by
    rw [irlsLoop]
    refine .bind ((irlsStep_safe hi hf hF hy hm hz).weaken fun h => ⟨mu, hr, h⟩) fun s _ hs => .bind (.inl (Safe.vecZip hb hs.2)) fun d _ _ => ?_
    split
    · exact .inl hs.2
    · exact .bind (.inl (Safe.mulVec hF hs.2)) fun fit ef hfit => .bind (.inl (Safe.vecZip hs.1 hfit)) fun z' _ hz' =>
        irlsLoop_safe hi hf hF hy mu0 iters _ z' s.2 (by simpa using hfit) hz' hs.2 (.inr ⟨s.2, fit, hs.2, ef, rfl⟩)

/-- **C87 (generalised linear models, training).** Training on any number of targets does not crash as long as the matrix inverse does not:
it panics only if the inverse fails on the weighted Gram matrix of the inputs with ones, the weights being those at the starting means or at
the means some parameters predict. -/
theorem C87_glm_train (inverse : Mat F → Outcome (Mat F)) (hi : SafeSquare inverse) (m : Glm F) {X : Mat F} {y : List F} {n c : ℕ}
    (hX : HasShape X n c) (hf : EnoughWeights m.family n) :
    SafeUnless (∃ full mu, withOnes X = ok full ∧
        (mu = y.map m.family.startMean ∨ ∃ β, β.length = c + 1 ∧ (⟨m.family, some β⟩ : Glm F).predict X = ok mu) ∧
        NoInverseAt inverse m.family full mu)
      (fun m' => ∃ p, m'.parameters = some p ∧ p.length = c + 1) (m.train inverse X y) := by
  unfold Glm.train
  split
  · exact .inl trivial
  · rename_i hy
    have hy' : y.length = n := by rw [← hX.1]; omega
    refine .bind (.inl (Safe.withOnes hX)) fun full ef hF => .bind
      ((irlsLoop_safe hi hf hF hy' (y.map m.family.startMean) 8 _ _ _ (by simpa using hy') (by simpa using hy') (by simp [hX.2.1]) (.inl rfl)).weaken ?_)
      fun b _ hb => .inl ⟨b, rfl, hb⟩
    rintro ⟨mu, h | ⟨b, s, h1, h2, rfl⟩, hno⟩
    · exact ⟨full, mu, ef, .inl h, hno⟩
    · refine ⟨full, _, ef, .inr ⟨b, h1, ?_⟩, hno⟩
      unfold Glm.predict
      simp only
      rw [ef, ok_bind, h2, ok_bind]

/-- **C87 (generalised linear models, prediction).** -/
theorem C87_glm_predict (f : Family F) (p : List F) {X : Mat F} {n c : ℕ} (hX : HasShape X n c) (hp : p.length = c + 1) :
    Safe (fun r => r.length = n) ((⟨f, some p⟩ : Glm F).predict X) :=
  Safe.bind (Safe.withOnes hX) fun _ hF => Safe.bind (Safe.mulVec hF hp) fun s hs => by
    show (s.map _).length = n
    simpa using hs

/-! ### Kernels, support vector machines, Gaussian processes -/

/-- **C87 (kernels).** The kernels of the library, and sums and products of them, can be applied to any two rows of equal width. -/
theorem C87_kernels (c : ℕ) (a b d e : F) :
    SafeKernel c (linearKernel a) ∧ SafeKernel c (polyKernel a b d) ∧ SafeKernel c (sqExpKernel a b) ∧ SafeKernel c (expKernel a b) ∧
    SafeKernel c (hyperTanKernel a b) ∧ SafeKernel c (multiquadricKernel e) ∧ SafeKernel c (rationalQuadraticKernel a b) ∧
    ∀ k1 k2 : Kernel F, SafeKernel c k1 → SafeKernel c k2 → SafeKernel c (kernelSum k1 k2) ∧ SafeKernel c (kernelProd k1 k2) := by
  have hv : ∀ u v : List F, u.length = c → v.length = c → vecZip Scalar.sub u v = ok (List.zipWith Scalar.sub u v) := by
    intro u v hu hv
    unfold vecZip
    rw [if_pos (by rw [hu, hv])]
  refine ⟨fun _ _ _ _ => ⟨_, rfl⟩, fun _ _ _ _ => ⟨_, rfl⟩, ?_, ?_, fun _ _ _ _ => ⟨_, rfl⟩, ?_, ?_, ?_⟩
  · intro u v h1 h2; unfold sqExpKernel; rw [hv u v h1 h2]; simp [h1, h2]
  · intro u v h1 h2; unfold expKernel; rw [hv u v h1 h2]; simp [h1, h2]
  · intro u v h1 h2; unfold multiquadricKernel; rw [hv u v h1 h2]; simp [h1, h2]
  · intro u v h1 h2; unfold rationalQuadraticKernel; rw [hv u v h1 h2]; exact ⟨_, rfl⟩
  · intro k1 k2 h1 h2
    constructor
    · intro u v hu hv
      obtain ⟨x, hx⟩ := h1 u v hu hv
      obtain ⟨z, hz⟩ := h2 u v hu hv
      exact ⟨x +. z, by simp [kernelSum, hx, hz]⟩
    · intro u v hu hv
      obtain ⟨x, hx⟩ := h1 u v hu hv
      obtain ⟨z, hz⟩ := h2 u v hu hv
      exact ⟨x *. z, by simp [kernelProd, hx, hz]⟩

omit [Scalar F] in
theorem SafeKernel.safe {c : ℕ} {ker : Kernel F} (h : SafeKernel c ker) {u v : List F} (hu : u.length = c) (hv : v.length = c) :
    Safe (fun _ => True) (ker u v) := by
  obtain ⟨x, hx⟩ := h u v hu hv
  rw [hx]; trivial

theorem kerMat_ok {c : ℕ} {ker : Kernel F} (h : SafeKernel c ker) {A B : Mat F} {n m : ℕ} (hA : HasShape A n c) (hB : HasShape B m c) :
    ∃ K, kerMat ker A B = ok K ∧ HasShape K n m := by
  have hs : Safe (fun K => HasShape K n m) (kerMat ker A B) := by
    unfold kerMat
    rw [if_neg (by rw [hA.2.1, hB.2.1]; simp)]
    refine Safe.bind (Safe.mapM (Q := fun r : List F => r.length = m) fun u hu => ?_) fun rows hr => ⟨by rw [hr.1, hA.1], hB.1, hr.2⟩
    refine (Safe.mapM (Q := fun _ => True) fun v hv => SafeKernel.safe h (hA.2.2 u hu) (hB.2.2 v hv)).mono fun r hr => by rw [hr.1, hB.1]
  have hne : NoErr (kerMat ker A B) := by
    unfold kerMat
    rw [if_neg (by rw [hA.2.1, hB.2.1]; simp)]
    refine NoErr.bind (NoErr.mapM fun u hu => NoErr.mapM fun v hv => ?_) fun _ _ => .ok _
    obtain ⟨x, hx⟩ := h u v (hA.2.2 u hu) (hB.2.2 v hv)
    rw [hx]; exact .ok _
  cases e : kerMat ker A B with
  | ok K => rw [e] at hs; exact ⟨K, rfl, hs⟩
  | err k => exact absurd e (hne k)
  | panic => rw [e] at hs; exact hs.elim
  | ub => rw [e] at hs; exact hs.elim

theorem kerMat_safe {c : ℕ} {ker : Kernel F} (h : SafeKernel c ker) {A B : Mat F} {n m : ℕ} (hA : HasShape A n c) (hB : HasShape B m c) :
    Safe (fun K => HasShape K n m) (kerMat ker A B) := by
  obtain ⟨K, e, hK⟩ := kerMat_ok h hA hB
  exact Safe.of_eq e hK

/-- **C87 (support vector machines, training).** With a usable kernel, as many targets as rows and at least one row, training does
not crash. -/
theorem C87_svm_train (draws : ℕ → ℕ) (m : Svm F) {X : Mat F} {y : List F} {n c : ℕ} (hX : HasShape X n c) (hy : y.length = n) (hn : 0 < n)
    (hk : SafeKernel (c + 1) m.ker) :
    Safe (fun m' => m'.ker = m.ker ∧ ∃ a D, m'.alpha = some a ∧ m'.trainInputs = some D ∧ m'.trainTargets = some y ∧ a.length = n ∧
      HasShape D n (c + 1)) (m.train draws X y) := by
  unfold Svm.train
  refine Safe.bind (Safe.withOnes hX) fun full hF => Safe.bind (Safe.foldlM (Q := fun a : List F => a.length = n) ?_ ?_) fun a ha =>
    ⟨rfl, _, full, rfl, rfl, rfl, by simpa using ha, hF⟩
  · simp [hX.1]
  · intro a t _ ha
    unfold svmStep
    refine Safe.bind (Safe.genRange (by rw [hF.1]; exact hn)) fun i hi => Safe.bind (Safe.getAt hi) fun row hrow =>
      Safe.bind (P := fun _ => True) ?_ fun s _ => Safe.bind (Safe.getAt (by rw [hy, ← hF.1]; exact hi)) fun yi _ => ?_
    · unfold kernelRowSum
      exact Safe.foldlM trivial fun s r hr _ => Safe.bind (SafeKernel.safe hk (hF.2.2 row hrow) (hF.2.2 r hr)) fun _ _ => trivial
    · dsimp only
      split
      · show (a.modify _ _).length = n
        simpa using ha
      · exact ha

/-- **C87 (support vector machines, prediction).** -/
theorem C87_svm_predict (m : Svm F) {a y : List F} {D X : Mat F} {k n c : ℕ} (hX : HasShape X n c) (hD : HasShape D k (c + 1))
    (hk : SafeKernel (c + 1) m.ker) (ha : a.length = k) (hy : y.length = k) (h1 : m.alpha = some a) (h2 : m.trainInputs = some D)
    (h3 : m.trainTargets = some y) : Safe (fun r => r.length = n) (m.predict X) := by
  unfold Svm.predict
  rw [h1, h2, h3]
  refine Safe.bind (Safe.withOnes hX) fun full hF => Safe.bind (kerMat_safe hk hF hD) fun K hK => Safe.bind (Safe.vecZip ha hy) fun w hw =>
    Safe.bind (Safe.mulVec hK (by simpa using hw)) fun d hd => ?_
  show (d.map _).length = n
  simpa using hd

theorem scaledIdentity_shape (n : ℕ) (s : F) : HasShape (scaledIdentity n s) n n := by
  refine ⟨by simp [scaledIdentity], rfl, ?_⟩
  intro r hr
  obtain ⟨i, _, rfl⟩ := List.mem_map.mp hr
  simp

/-- **C87 (Gaussian processes, training).** With a usable kernel, a mean for every row and as many targets as rows, training does
not crash: it panics only if a triangular solve fails for the Cholesky factor of the kernel matrix with noise. -/
theorem C87_gp_train (lib : TriLib F) (hc : SafeSquare lib.cholesky) (hl : SafeSolver lib.solveL) (hu : SafeSolver lib.solveU) (g : Gp F)
    {X : Mat F} {y : List F} {n c : ℕ} (hX : HasShape X n c) (hy : y.length = n) (hk : SafeKernel c g.ker) (hm : (g.mean X).length = n) :
    SafeUnless (∃ K A L r, kerMat g.ker X X = ok K ∧ Mat.zip Scalar.add K (scaledIdentity X.rows.length g.noise) = ok A ∧ lib.cholesky A = ok L ∧
        vecZip Scalar.sub y (g.mean X) = ok r ∧
        ((∃ e, lib.solveL L r = err e) ∨ ∃ x e, lib.solveL L r = ok x ∧ lib.solveU L.transpose x = err e))
      (fun g' => g'.ker = g.ker ∧ g'.mean = g.mean ∧ ∃ a L, g'.alpha = some a ∧ g'.trainMat = some L ∧ g'.trainData = some X ∧ a.length = n ∧
        HasShape L n n) (g.train lib X y) := by
  unfold Gp.train
  obtain ⟨K, hK, hKs⟩ := kerMat_ok hk hX hX
  dsimp only
  rw [hK]
  refine .bind (P := fun K' => HasShape K' n n) (.inl hKs) fun K' eK' hK' => ?_
  cases eK'
  refine .bind (.inl (Safe.zip hK' (by rw [hX.1]; exact scaledIdentity_shape n _))) fun A eA hA =>
    .bind (P := fun L => HasShape L n n) (.inl ?_) fun L eL hL' => .bind (.inl (Safe.vecZip hy hm)) fun r er hr => ?_
  · have := hc A n hA
    cases e : lib.cholesky A with
    | ok L => rw [e] at this; exact this
    | err k => trivial
    | panic => rw [e] at this; exact this.elim
    | ub => rw [e] at this; exact this.elim
  · have eL' : lib.cholesky A = ok L := by
      cases e : lib.cholesky A with
      | ok L' => rw [e] at eL; exact eL
      | err k => rw [e] at eL; cases eL
      | panic => rw [e] at eL; cases eL
      | ub => rw [e] at eL; cases eL
    refine .bind (.expect (hl L r n hL' hr) fun e he => ⟨K, A, L, r, rfl, eA, eL', er, .inl ⟨e, he⟩⟩) fun x ex hx =>
      .bind (.expect (hu L.transpose x n (HasShape.transpose hL') hx) fun e he => ⟨K, A, L, r, rfl, eA, eL', er, .inr ⟨x, e, ?_, he⟩⟩) fun a _ ha =>
        .inl ⟨rfl, rfl, a, L, rfl, rfl, rfl, ha, hL'⟩
    cases e' : lib.solveL L r with
    | ok x' => rw [e'] at ex; exact ex
    | err k => rw [e'] at ex; cases ex
    | panic => rw [e'] at ex; cases ex
    | ub => rw [e'] at ex; cases ex

/-- **C87 (Gaussian processes, prediction).** -/
theorem C87_gp_predict (g : Gp F) {a : List F} {D X : Mat F} {k n c : ℕ} (hX : HasShape X n c) (hD : HasShape D k c) (hk : SafeKernel c g.ker)
    (hm : (g.mean X).length = n) (ha : a.length = k) (h1 : g.alpha = some a) (h2 : g.trainData = some D) :
    Safe (fun r => r.length = n) (g.predict X) := by
  unfold Gp.predict
  rw [h1, h2]
  exact Safe.bind (kerMat_safe hk hX hD) fun K hK => Safe.bind (Safe.mulVec hK ha) fun p hp => Safe.vecZip hm hp

theorem Spec.SafeUnless.mapM {α β : Type} {bad : Prop} {Q : β → Prop} {f : α → Outcome β} : ∀ {l : List α}, (∀ a ∈ l, SafeUnless bad Q (f a)) →
    SafeUnless bad (fun r => r.length = l.length ∧ ∀ b ∈ r, Q b) (l.mapM f)
  | [], _ => .inl ⟨rfl, by simp⟩
  | a :: l, h => by
    rw [List.mapM_cons]
    refine .bind (h a (by simp)) fun b _ hb => .bind (Spec.SafeUnless.mapM fun x hx => h x (by simp [hx])) fun r _ hr => .inl ?_
    refine ⟨by simp [hr.1], fun x hx => ?_⟩
    rcases List.mem_cons.1 hx with rfl | hx
    · exact hb
    · exact hr.2 x hx

/-- **C87 (Gaussian processes, posterior).** The posterior panics only if the triangular solve fails for the stored factor and the kernel
values of one of the new rows. -/
theorem C87_gp_posterior (lib : TriLib F) (hl : SafeSolver lib.solveL) (g : Gp F) {a : List F} {D L X : Mat F} {k n c : ℕ} (hX : HasShape X n c)
    (hD : HasShape D k c) (hLs : HasShape L k k) (hk : SafeKernel c g.ker) (hm : (g.mean X).length = n) (ha : a.length = k) (h1 : g.alpha = some a)
    (h2 : g.trainData = some D) (h3 : g.trainMat = some L) :
    SafeUnless (∃ K, kerMat g.ker X D = ok K ∧ ∃ b ∈ K.rows, ∃ e, lib.solveL L b = err e) (fun r => r.1.length = n ∧ HasShape r.2 n n)
      (g.posterior lib X) := by
  unfold Gp.posterior
  rw [h1, h2, h3]
  refine .bind (.inl (kerMat_safe hk hX hD)) fun K _ hK => .bind (.inl (Safe.mulVec hK ha)) fun p _ hp => .bind (.inl (Safe.vecZip hm hp)) fun pm _ hpm =>
    .bind (.inl (kerMat_safe hk hX hD)) fun T eT hT => .bind (.mapM (Q := fun r : List F => r.length = k) fun row hrow => ?_) fun rows _ hr => .inl ?_
  · exact .expect (hl L row k hLs (hT.2.2 row hrow)) fun e he => ⟨T, eT, row, hrow, e, he⟩
  · rw [hT.1, hT.2.1]
    exact Safe.bind (Safe.new_flatten (by rw [hr.1, hT.1]) hr.2) fun v hv => Safe.bind (kerMat_safe hk hX hX) fun kk hkk =>
      Safe.bind (Safe.mul hv (HasShape.transpose hv)) fun vv hvv => Safe.bind (Safe.zip hkk hvv) fun pv hpv => ⟨hpm, hpv⟩

/-! ### Naive Bayes -/

/-- A class distribution that does not crash: `S d k c` says that `d` is for `k` classes and `c` columns. -/
structure SafeDistr {D : Type} (B : NBDistr D F) (S : D → ℕ → ℕ → Prop) : Prop where
  start : ∀ k c, S (B.fromParams k c) k c
  update : ∀ d k c X n i, S d k c → HasShape X n c → i < k → Safe (fun d' => S d' k c) (B.update d X i)
  lik : ∀ d k c X n p, S d k c → HasShape X n c → p.length = k → Safe (fun M => HasShape M n k) (B.jointLogLik d X p)

theorem findClass_safe : ∀ (i : ℕ) (row : List F), Safe (fun c => c < i + row.length) (findClass i row)
  | _, [] => trivial
  | i, x :: row => by
    unfold findClass
    split
    · show i < i + (row.length + 1); omega
    · exact (findClass_safe (i + 1) row).mono fun c hc => by simp only [List.length_cons]; omega

theorem nbScan_safe (k n : ℕ) : ∀ (i : ℕ) (rows : List (List F)) (counts : List ℕ) (data : List (List ℕ)), (∀ r ∈ rows, r.length = k) →
    i + rows.length ≤ n → counts.length = k → data.length = k → (∀ v ∈ data, ∀ j ∈ v, j < n) →
    (nbScan i rows counts data).1.length = k ∧ Safe (fun d => d.length = k ∧ ∀ v ∈ d, ∀ j ∈ v, j < n) (nbScan i rows counts data).2
  | i, [], counts, data, _, _, hc, hd, hv => ⟨hc, hd, hv⟩
  | i, row :: rows, counts, data, hr, hi, hc, hd, hv => by
    unfold nbScan
    have hs := findClass_safe 0 row
    rw [Nat.zero_add, hr row List.mem_cons_self] at hs
    cases e : findClass 0 row with
    | ok cl =>
      rw [e] at hs
      simp only
      have hlt : cl < k := hs
      rw [if_pos (by rw [hd]; exact hlt)]
      simp only [List.length_cons] at hi
      refine nbScan_safe k n (i + 1) rows _ _ (fun r h => hr r (List.mem_cons_of_mem _ h)) (by omega) (by simpa using hc) (by simpa using hd) ?_
      intro v hvm j hj
      rw [List.modify_eq_take_cons_drop (by rw [hd]; exact hlt)] at hvm
      rcases List.mem_append.mp hvm with h | h
      · exact hv v (List.mem_of_mem_take h) j hj
      · rcases List.mem_cons.mp h with rfl | h
        · rcases List.mem_append.mp hj with h | h
          · exact hv _ (List.getElem_mem _) j h
          · rw [List.mem_singleton] at h; omega
        · exact hv v (List.mem_of_mem_drop h) j hj
    | err _ => exact ⟨hc, trivial⟩
    | panic => rw [e] at hs; exact hs.elim
    | ub => rw [e] at hs; exact hs.elim

theorem nbFit_safe {D : Type} {B : NBDistr D F} {S : D → ℕ → ℕ → Prop} (hB : SafeDistr B S) {X : Mat F} {n c k : ℕ} (hX : HasShape X n c) :
    ∀ (i : ℕ) (cs : List (List ℕ)) (d : D), i + cs.length ≤ k → (∀ v ∈ cs, ∀ j ∈ v, j < n) → S d k c →
      S (nbFit B X i cs d).1 k c ∧ Safe (fun _ => True) (nbFit B X i cs d).2
  | i, [], d, _, _, hS => ⟨hS, trivial⟩
  | i, v :: cs, d, hi, hv, hS => by
    simp only [List.length_cons] at hi
    have hv' : ∀ w ∈ cs, ∀ j ∈ w, j < n := fun w hw => hv w (List.mem_cons_of_mem _ hw)
    unfold nbFit
    split
    · exact nbFit_safe hB hX (i + 1) cs d (by omega) hv' hS
    · have h1 := Safe.selectRows hX (idx := v) (hv v List.mem_cons_self)
      cases e : X.selectRows v with
      | ok R =>
        rw [e] at h1
        simp only
        have h2 := hB.update d k c R _ i hS h1 (by omega)
        cases e' : B.update d R i with
        | ok d' => rw [e'] at h2; exact nbFit_safe hB hX (i + 1) cs d' (by omega) hv' h2
        | err _ => exact ⟨hS, trivial⟩
        | panic => rw [e'] at h2; exact h2.elim
        | ub => rw [e'] at h2; exact h2.elim
      | err _ => exact ⟨hS, trivial⟩
      | panic => rw [e] at h1; exact h1.elim
      | ub => rw [e] at h1; exact h1.elim

/-- A model trained for `k` classes and `c` columns. -/
def NBReady {D : Type} (S : D → ℕ → ℕ → Prop) (m : NaiveBayes D F) (k c : ℕ) : Prop :=
  ∃ d p, m.distr = some d ∧ m.classPrior = some p ∧ m.clusterCount = some k ∧ S d k c ∧ p.length = k

/-- **C87 (naive Bayes, training).** With as many target rows as input rows training does not crash. -/
theorem C87_naive_bayes_train {D : Type} (B : NBDistr D F) (S : D → ℕ → ℕ → Prop) (hB : SafeDistr B S) (m : NaiveBayes D F) {X T : Mat F}
    {n c k : ℕ} (hX : HasShape X n c) (hT : HasShape T n k) :
    Safe (fun _ => NBReady S (nbTrain B m X T).1 k c) (nbTrain B m X T).2 := by
  have hs := nbScan_safe k n 0 T.rows (List.replicate k 0) (List.replicate k []) hT.2.2 (by rw [hT.1]; omega) (by simp) (by simp)
    (by intro v hv; rw [(List.mem_replicate.mp hv).2]; simp)
  have htc := hT.2.1
  unfold nbTrain
  rw [htc]
  dsimp only
  generalize hq : nbScan 0 T.rows (List.replicate k 0) (List.replicate k []) = q at hs
  obtain ⟨counts, o⟩ := q
  cases o with
  | ok data =>
    have hf := nbFit_safe hB (k := k) hX 0 data (B.fromParams k X.cols) (by have := hs.2.1; omega) hs.2.2 (by rw [hX.2.1]; exact hB.start k c)
    dsimp only
    generalize hw : nbFit B X 0 data (B.fromParams k X.cols) = w at hf
    obtain ⟨d, o'⟩ := w
    cases o' with
    | ok _ => exact ⟨d, _, rfl, rfl, rfl, hf.1, by simpa using hs.1⟩
    | err _ => trivial
    | panic => exact hf.2.elim
    | ub => exact hf.2.elim
  | err _ => trivial
  | panic => exact hs.2.elim
  | ub => exact hs.2.elim

/-- **C87 (naive Bayes, prediction).** A model trained with at least one class predicts rows of the same width without crashing. -/
theorem C87_naive_bayes_predict {D : Type} (B : NBDistr D F) (S : D → ℕ → ℕ → Prop) (hB : SafeDistr B S) (m : NaiveBayes D F) {X : Mat F}
    {n c k : ℕ} (hm : NBReady S m k c) (hk : 0 < k) (hX : HasShape X n c) : Safe (fun M => HasShape M n k) (nbPredict B m X) := by
  obtain ⟨d, p, h1, h2, h3, hS, hp⟩ := hm
  unfold nbPredict nbLogProbs
  rw [h1, h2, h3]
  refine Safe.bind (hB.lik d k c X n p hS hX hp) fun L hL => Safe.bind (Safe.mapM (Q := fun j => j < k) fun row hrow => ?_) fun cl hcl => ?_
  · have hl := hL.2.2 row hrow
    exact Safe.bind (Safe.argmaxBy (by intro h; rw [h] at hl; simp at hl; omega)) fun r hr => by
      show r.1 < k
      rw [← hl]; exact hr
  · refine Safe.bind (Safe.mapM (Q := fun r : List F => r.length = k) fun j hj => ?_) fun rows hr => ?_
    · exact (Safe.setAt (by simpa using hcl.2 j hj)).mono fun r hr => by rw [hr]; simp
    · rw [hX.1]
      exact Safe.new_flatten (by rw [hr.1, hcl.1, hL.1]) hr.2

theorem zeros_shape (n c : ℕ) : HasShape (Mat.zeros n c : Mat F) n c := by
  refine ⟨by simp [Mat.zeros], rfl, ?_⟩
  intro r hr
  rw [(List.mem_replicate.mp hr).2]
  simp

theorem set_shape {M : Mat F} {k c i : ℕ} (hM : HasShape M k c) {x : List F} (hx : x.length = c) : HasShape ⟨M.cols, M.rows.set i x⟩ k c := by
  refine ⟨by simpa using hM.1, hM.2.1, ?_⟩
  intro r hr
  rcases List.mem_or_eq_of_mem_set hr with h | h
  · exact hM.2.2 r h
  · rw [h]; exact hx

theorem sumRows_length (M : Mat F) : M.sumRows.length = M.cols := by simp [Mat.sumRows]

theorem addClassRow_safe {R : Mat F} {n k : ℕ} (hR : HasShape R n k) {p : List F} (hp : p.length = k) :
    Safe (fun M => HasShape M n k) (addClassRow R n p) := by
  unfold addClassRow
  refine Safe.bind (Safe.new (n := 1) (c := p.length) (by simp)) fun row hrow =>
    Safe.bind (Safe.selectRows hrow (idx := List.replicate n 0) (by intro i hi; rw [(List.mem_replicate.mp hi).2]; omega)) fun sel hsel => ?_
  rw [List.length_replicate, hp] at hsel
  exact Safe.zip hR hsel

/-- **C87 (naive Bayes, Gaussian).** The Gaussian class distribution does not crash. -/
theorem C87_gaussian [ScalarPi F] : SafeDistr (gaussDistr (F := F)) fun d k c => HasShape d.theta k c ∧ HasShape d.sigma k c where
  start k c := ⟨zeros_shape k c, zeros_shape k c⟩
  update d k c X n i hS hX hi := by
    show Safe _ (gaussUpdate d X i)
    unfold gaussUpdate
    dsimp only
    have hv : Safe (fun v => v.length = c) X.varianceRow := by
      unfold Mat.varianceRow
      split
      · trivial
      · show (List.map _ _).length = c
        simp [hX.2.1]
    cases e : X.varianceRow with
    | ok var =>
      rw [e] at hv
      refine Safe.bind (Safe.setAt (by rw [hS.1.1]; exact hi)) fun th hth => Safe.bind (Safe.setAt (by rw [hS.2.1]; exact hi)) fun sg hsg => ?_
      rw [hth, hsg]
      exact ⟨set_shape hS.1 (by rw [meanRow_length, hX.2.1]), set_shape hS.2 hv⟩
    | err _ => trivial
    | panic => rw [e] at hv; exact hv.elim
    | ub => rw [e] at hv; exact hv.elim
  lik d k c X n p hS hX hp := by
    show Safe _ (p.zipIdx.mapM _ >>= _)
    refine Safe.bind (Safe.mapM (Q := fun r : List F => r.length = n) fun q hq => ?_) fun liks hl => ?_
    · have hq2 : q.2 < k := by
        have := List.snd_lt_of_mem_zipIdx hq
        omega
      unfold gaussClassLik
      have hrep : ∀ j ∈ List.replicate X.rows.length q.2, j < k := by intro j hj; rw [(List.mem_replicate.mp hj).2]; exact hq2
      refine Safe.bind (Safe.selectRows hS.2 (idx := [q.2]) (by intro j hj; rw [List.mem_singleton.mp hj]; exact hq2)) fun s _ =>
        Safe.bind (Safe.selectRows hS.1 hrep) fun th hth => ?_
      rw [List.length_replicate, hX.1] at hth
      refine Safe.bind (Safe.zip hX hth) fun diff hd => Safe.bind (Safe.selectRows hS.2 hrep) fun sg hsg => ?_
      rw [List.length_replicate, hX.1] at hsg
      refine Safe.bind (Safe.zip (HasShape.map hd _) hsg) fun q hq => ?_
      show (List.map _ _).length = n
      simp [Mat.sumCols, hq.1]
    · rw [hX.1]
      refine Safe.bind (Safe.new_flatten (n := p.length) (by rw [hl.1]; simp) hl.2) fun M hM => ?_
      rw [hp] at hM
      exact HasShape.transpose hM

/-- **C87 (naive Bayes, Bernoulli).** The Bernoulli class distribution does not crash. -/
theorem C87_bernoulli : SafeDistr (bernDistr (F := F)) fun d k c => HasShape d.logProbs k c where
  start k c := zeros_shape k c
  update d k c X n i hS hX hi := by
    show Safe _ (bernUpdate d X i)
    unfold bernUpdate
    refine Safe.bind (Safe.setAt (by rw [hS.1]; exact hi)) fun r hr => ?_
    rw [hr]
    exact set_shape hS (by simp [sumRows_length, hX.2.1])
  lik d k c X n p hS hX hp := by
    show Safe _ (Mat.zip _ _ _ >>= _)
    refine Safe.bind (Safe.zip hS (HasShape.map hS _)) fun diff hd => Safe.bind (Safe.mul hX (HasShape.transpose hd)) fun res hres =>
      Safe.bind (Safe.mapM (Q := fun _ => True) fun q hq => ?_) fun per hper => ?_
    · have hq2 : q.2 < k := by
        have := List.snd_lt_of_mem_zipIdx hq
        omega
      exact Safe.bind (Safe.getAt (by simp [Mat.sumCols, Mat.map, hS.1, hq2])) fun _ _ => trivial
    · rw [hX.1]
      exact addClassRow_safe hres (by rw [hper.1]; simpa using hp)

/-- **C87 (naive Bayes, multinomial).** The multinomial class distribution does not crash. -/
theorem C87_multinomial : SafeDistr (multDistr (F := F)) fun d k c => HasShape d.logProbs k c where
  start k c := zeros_shape k c
  update d k c X n i hS hX hi := by
    show Safe _ (multUpdate d X i)
    unfold multUpdate
    refine Safe.bind (Safe.setAt (by rw [hS.1]; exact hi)) fun r hr => ?_
    rw [hr]
    exact set_shape hS (by simp [sumRows_length, hX.2.1])
  lik d k c X n p hS hX hp := by
    show Safe _ (Mat.mul _ _ >>= _)
    refine Safe.bind (Safe.mul hX (HasShape.transpose hS)) fun res hres => ?_
    rw [hX.1]
    exact addClassRow_safe hres (by simpa using hp)

end RM
