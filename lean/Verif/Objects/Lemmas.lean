import Verif.Objects.Spec

/-!
# Lemmas on field variables
-/

namespace Mpb.Objects

open Mpb.Field

/-- The state with block `b` replaced. -/
def upd (t : St) (b : ℕ) (M : ℕ → ℝ) : St := { t with mem := Function.update t.mem b M }

theorem upd_upd (t : St) (b : ℕ) (M M' : ℕ → ℝ) : upd (upd t b M) b M' = upd t b M' := by simp [upd]

theorem upd_self (t : St) (b : ℕ) : upd t b (t.mem b) = t := by simp [upd]

theorem upd_mem (t : St) (b : ℕ) (M : ℕ → ℝ) : (upd t b M).mem b = M := by simp [upd]

theorem upd_mem_ne (t : St) {a b : ℕ} (h : a ≠ b) (M : ℕ → ℝ) : (upd t b M).mem a = t.mem a := by simp [upd, h]

theorem wr_eq (t : St) {b i : ℕ} (h : i < t.size b) (x : ℝ) : wr t b i x = some (upd t b (Function.update (t.mem b) i x)) := by
  unfold wr; rw [if_pos h]; rfl

theorem rd_eq (t : St) {b i : ℕ} (h : i < t.size b) : rd t b i = some (t.mem b i) := by unfold rd; rw [if_pos h]

theorem rdC_eq (t : St) {b i : ℕ} (h : 2 * i + 1 < t.size b) : rdC t b i = some ⟨t.mem b (2 * i), t.mem b (2 * i + 1)⟩ := by
  unfold rdC; rw [rd_eq t (by omega), rd_eq t h]; rfl

theorem itemAt_eq (t : St) (f : Smob) {i N : ℕ} (hi : i < N) (h : f.kind.width * N ≤ t.size f.ptr) :
    itemAt t f i = some (decode f.kind (t.mem f.ptr) i) := by
  unfold itemAt decode
  cases hk : f.kind with
  | rs => rw [hk] at h; simp only [Kind.width] at h; simp only; rw [rd_eq t (by omega)]; rfl
  | cs => rw [hk] at h; simp only [Kind.width] at h; simp only; rw [rdC_eq t (by omega)]; rfl
  | cv =>
    rw [hk] at h; simp only [Kind.width] at h; simp only
    rw [rdC_eq t (by omega), rdC_eq t (by omega), rdC_eq t (by omega)]
    simp only [Option.bind_some, Option.map_some]
    rw [show 2 * (3 * i) = 6 * i by ring, show 2 * (3 * i + 1) = 6 * i + 2 by ring, show 2 * (3 * i + 2) = 6 * i + 4 by ring]

/-- The reals of a block after a value was stored. -/
def encode (M : ℕ → ℝ) (i : ℕ) : Item → ℕ → ℝ
  | .r x => Function.update M i x
  | .c z => Function.update (Function.update M (2 * i) z.re) (2 * i + 1) z.im
  | .v v => Function.update (Function.update (Function.update (Function.update (Function.update (Function.update M (6 * i) v.x.re) (6 * i + 1) v.x.im)
      (6 * i + 2) v.y.re) (6 * i + 3) v.y.im) (6 * i + 4) v.z.re) (6 * i + 5) v.z.im

theorem wrC_eq (t : St) {b i : ℕ} (h : 2 * i + 1 < t.size b) (z : ℂ) :
    wrC t b i z = some (upd t b (Function.update (Function.update (t.mem b) (2 * i) z.re) (2 * i + 1) z.im)) := by
  unfold wrC
  rw [wr_eq t (by omega), Option.bind_some, wr_eq _ (by exact h), upd_mem, upd_upd]

theorem store_eq (t : St) (f : Smob) {i N : ℕ} (hi : i < N) (h : f.kind.width * N ≤ t.size f.ptr) (x : Item) (hx : itemKind x = f.kind) :
    store t f i x = some (upd t f.ptr (encode (t.mem f.ptr) i x)) := by
  unfold store
  cases x with
  | r x => rw [← hx] at h ⊢; simp only [itemKind, Kind.width] at h ⊢; exact wr_eq t (by omega) x
  | c x => rw [← hx] at h ⊢; simp only [itemKind, Kind.width] at h ⊢; exact wrC_eq t (by omega) x
  | v x =>
    rw [← hx] at h ⊢; simp only [itemKind, Kind.width] at h ⊢
    rw [wrC_eq t (by omega), Option.bind_some, wrC_eq _ (by show _ < t.size _; omega), Option.bind_some, wrC_eq _ (by show _ < t.size _; omega)]
    simp only [upd_mem, upd_upd, encode]
    rw [show 2 * (3 * i) = 6 * i by ring, show 2 * (3 * i + 1) = 6 * i + 2 by ring, show 2 * (3 * i + 2) = 6 * i + 4 by ring]

theorem decode_encode (M : ℕ → ℝ) (i j : ℕ) (x : Item) :
    decode (itemKind x) (encode M i x) j = if j = i then x else decode (itemKind x) M j := by
  by_cases hj : j = i
  · subst hj
    rw [if_pos rfl]
    cases x with
    | r x => simp [decode, encode, itemKind]
    | c x => simp [decode, encode, itemKind]
    | v x => simp [decode, encode, itemKind, Function.update_apply]
  · rw [if_neg hj]
    cases x with
    | r x => simp [decode, encode, itemKind, Function.update_apply, hj]
    | c x =>
      simp only [decode, encode, itemKind, Function.update_apply]
      rw [if_neg (by omega), if_neg (by omega), if_neg (by omega), if_neg (by omega)]
    | v x =>
      simp only [decode, encode, itemKind, Function.update_apply]
      have h : ∀ a b : ℕ, a < 6 → b < 6 → 6 * j + a ≠ 6 * i + b := fun a b ha hb => by omega
      have h0 : ∀ b : ℕ, b < 6 → 6 * j ≠ 6 * i + b := fun b hb => h 0 b (by omega) hb
      have h1 : ∀ a : ℕ, a < 6 → 6 * j + a ≠ 6 * i := fun a ha => h a 0 ha (by omega)
      have h2 : 6 * j ≠ 6 * i := h 0 0 (by omega) (by omega)
      simp [h, h0, h1, h2]

theorem decode_congr (k : Kind) {x y : ℕ → ℝ} {N i : ℕ} (hi : i < N) (h : ∀ j < k.width * N, x j = y j) : decode k x i = decode k y i := by
  unfold decode
  cases k with
  | rs => simp only [Kind.width] at h; simp only; rw [h _ (by omega)]
  | cs => simp only [Kind.width] at h; simp only; rw [h _ (by omega), h _ (by omega)]
  | cv =>
    simp only [Kind.width] at h; simp only
    rw [h _ (by omega), h _ (by omega), h _ (by omega), h _ (by omega), h _ (by omega), h _ (by omega)]

theorem copyLoop_eq (t : St) (a b : ℕ) (n : ℕ) (ha : n ≤ t.size a) (hb : n ≤ t.size b) :
    copyLoop a b n t = some (upd t a (fun j => if j < n then t.mem b j else t.mem a j)) := by
  induction n with
  | zero => simp [copyLoop, upd]
  | succ n ih =>
    have e : ∀ j, (upd t a (fun j => if j < n then t.mem b j else t.mem a j)).mem b n = t.mem b n ∧
        Function.update (fun j => if j < n then t.mem b j else t.mem a j) n (t.mem b n) j = if j < n + 1 then t.mem b j else t.mem a j := by
      intro j
      constructor
      · by_cases hab : b = a
        · subst hab; rw [upd_mem]; simp
        · rw [upd_mem_ne _ hab]
      · rw [Function.update_apply]
        by_cases h : j = n
        · rw [if_pos h, if_pos (by omega), h]
        · rw [if_neg h]
          by_cases h2 : j < n
          · rw [if_pos h2, if_pos (by omega)]
          · rw [if_neg h2, if_neg (by omega)]
    rw [copyLoop, ih (by omega) (by omega), Option.bind_some]
    unfold copyReal
    rw [rd_eq _ (by show n < t.size b; omega), Option.bind_some, wr_eq _ (by show n < t.size a; omega), upd_mem, upd_upd, (e 0).1]
    congr 2
    funext j
    exact (e j).2

theorem conform_eq (f g : Smob) : conform f g = decide (f.dims = g.dims) := by
  unfold conform
  cases hf : f.dims with
  | mk a1 a2 a3 a4 a5 a6 a7 a8 a9 =>
    cases hg : g.dims with
    | mk b1 b2 b3 b4 b5 b6 b7 b8 b9 =>
      simp only [Dims.mk.injEq]
      rw [Bool.eq_iff_iff]
      simp only [Bool.and_eq_true, beq_iff_eq, decide_eq_true_eq]
      tauto

theorem items_eq (t : St) (gs : List Smob) {i N : ℕ} (hi : i < N) (h : ∀ g ∈ gs, g.kind.width * N ≤ t.size g.ptr) :
    items t i gs = some (gs.map fun g => decode g.kind (t.mem g.ptr) i) := by
  induction gs with
  | nil => rfl
  | cons g gs ih =>
    simp only [items]
    rw [ih (fun g hg => h g (List.mem_cons_of_mem _ hg)), Option.bind_some, itemAt_eq t g hi (h g List.mem_cons_self)]
    rfl

theorem mapLoop_eq (t : St) (f : Smob) (fn : List Item → Item) (gs : List Smob) (N : ℕ) (hf : f.kind.width * N ≤ t.size f.ptr)
    (hg : ∀ g ∈ gs, g.kind.width * N ≤ t.size g.ptr) (hsep : ∀ g ∈ gs, g.ptr = f.ptr → g.kind = f.kind) (hfn : ∀ l, itemKind (fn l) = f.kind) :
    ∀ n ≤ N, ∃ M, mapLoop f fn gs n t = some (upd t f.ptr M) ∧
      ∀ j, decode f.kind M j = if j < n then fn (gs.map fun g => decode g.kind (t.mem g.ptr) j) else decode f.kind (t.mem f.ptr) j := by
  intro n
  induction n with
  | zero => intro _; exact ⟨t.mem f.ptr, by simp [mapLoop, upd_self], fun j => by simp⟩
  | succ n ih =>
    intro hn
    obtain ⟨M, h1, h2⟩ := ih (by omega)
    have hit : items (upd t f.ptr M) n gs = some (gs.map fun g => decode g.kind (t.mem g.ptr) n) := by
      rw [items_eq (upd t f.ptr M) gs (show n < N by omega) (fun g h => hg g h)]
      congr 1
      refine List.map_congr_left (fun g h => ?_)
      by_cases hp : g.ptr = f.ptr
      · rw [hp, upd_mem, hsep g h hp, h2, if_neg (by omega)]
      · rw [upd_mem_ne _ hp]
    set x := fn (gs.map fun g => decode g.kind (t.mem g.ptr) n) with hx
    refine ⟨encode M n x, ?_, ?_⟩
    · rw [mapLoop, h1, Option.bind_some, hit, Option.bind_some, ← hx,
        store_eq (upd t f.ptr M) f (show n < N by omega) hf x (hfn _), upd_mem, upd_upd]
    · intro j
      have := decode_encode M n j x
      rw [hfn] at this
      rw [this]
      by_cases hj : j = n
      · rw [if_pos hj, if_pos (by omega), hj]
      · rw [if_neg hj, h2]
        by_cases hj2 : j < n
        · rw [if_pos hj2, if_pos (by omega)]
        · rw [if_neg hj2, if_neg (by omega)]

end Mpb.Objects
