import Verif.FindK.Lemmas

/-! # Property C59: the caches of `find-k` are transparent -/

namespace Mpb.FindK
open Spec
variable {κ F : Type*} [DecidableEq κ] [Field F] [LinearOrder F]

/-- C59.  For every frequency/velocity function, every root finder (asking for any points in any order), every range of
bands and every starting guess: `find-k` succeeds; the wavevectors it returns are those found by fresh computations
without any cache, where the root finder for each band starts from the user's guess if nothing has been evaluated before
and otherwise from a point with the smallest distance to the target frequency among **all** points evaluated so far; and
`num-bands` and `k-points` are restored. -/
theorem C59_caches_transparent (f v : ℕ → κ → F) (fs vs : ℕ → κ → List F) (hO : Oracle f v fs vs) (omega : F)
    (bmin bmax : ℕ) (h1 : 1 ≤ bmin) (guess : ℕ → κ) (strat : ℕ → κ → Strat κ F) (numBands : ℕ) (kPoints : List κ) :
    ∃ ks st, findK fs vs omega bmin bmax guess strat numBands kPoints = some (ks, st) ∧
      Results f v omega (fun b => guess (b - bmin)) strat (bandsDown bmin bmax) [] ks.reverse ∧
      st.numBands = numBands ∧ st.kPoints = kPoints := by
  obtain ⟨ks, st, e, hr⟩ := bandLoop_spec hO h1 (guess := guess) strat (bmax + 1 - bmin) (pts := [])
    (st := ⟨guess, [], numBands, kPoints⟩) (omega := omega)
    (fun b _ _ => ⟨fun k => by simp, Or.inl ⟨rfl, rfl⟩⟩)
  refine ⟨ks.reverse, { st with numBands := numBands, kPoints := kPoints }, ?_, ?_, rfl, rfl⟩
  · simp only [findK, bandsDown, e]
  · rw [List.reverse_reverse]; exact hr

/-- C59 (single evaluation).  After any history that evaluated exactly the points `pts` for the bands `bmin..b`, asking for
band `b` at any point returns what a fresh computation returns, whether or not it is cached. -/
theorem C59_lookup_fresh (f v : ℕ → κ → F) (fs vs : ℕ → κ → List F) (hO : Oracle f v fs vs) (omega : F) (bmin b : ℕ)
    (h1 : 1 ≤ bmin) (hb : bmin ≤ b) (guess : ℕ → κ) (qs : List κ) (k : κ) :
    ∃ st st', qs.foldlM (fun st q => (rootfun fs vs omega bmin b q st).map Prod.snd) (⟨guess, [], 0, []⟩ : St κ F) = some st ∧
      rootfun fs vs omega bmin b k st = some ((f b k - omega, v b k), st') ∧
      ∀ b', bmin ≤ b' → b' ≤ b → BestAmong f omega b' (k :: qs) (st'.k0s (b' - bmin)) := by
  have key : ∀ (qs : List κ) (pts : List κ) (st0 : St κ F), Inv f v omega bmin b guess pts st0 →
      ∃ st, qs.foldlM (fun st q => (rootfun fs vs omega bmin b q st).map Prod.snd) st0 = some st ∧
        Inv f v omega bmin b guess (qs ++ pts) st := by
    intro qs
    induction qs with
    | nil => intro pts st0 h; exact ⟨st0, rfl, h⟩
    | cons q qs ih =>
      intro pts st0 h
      obtain ⟨st', e1, e2⟩ := rootfun_spec hO h1 hb h q
      obtain ⟨st, e3, e4⟩ := ih _ _ e2
      refine ⟨st, by simp [List.foldlM_cons, e1, e3], inv_congr e4 (fun k' => ?_)⟩
      simp only [List.mem_append, List.mem_cons]; tauto
  obtain ⟨st, e1, e2⟩ := key qs [] ⟨guess, [], 0, []⟩ (fun b _ _ => ⟨fun k => by simp, Or.inl ⟨rfl, rfl⟩⟩)
  obtain ⟨st', e3, e4⟩ := rootfun_spec hO h1 hb e2 k
  refine ⟨st, st', e1, e3, fun b' hb1 hb2 => ?_⟩
  rcases (e4 b' hb1 hb2).2 with ⟨e, -⟩ | h
  · simp at e
  · simpa using h

/-! ### Non-vacuity -/

/-- An oracle with two distinct bands. -/
example : Oracle (κ := ℚ) (F := ℚ) (fun b k => b * k) (fun b _ => b)
    (fun n k => (List.range n).map (fun i => ((i + 1 : ℕ) : ℚ) * k)) (fun n _ => (List.range n).map (fun i => ((i + 1 : ℕ) : ℚ))) :=
  ⟨fun _ _ => rfl, fun _ _ => rfl⟩

/-- A concrete run: one Newton step per band, starting from guess 1, target frequency 6; band 2 gives 3, and band 1 starts
from the best point 1 evaluated for band 2 (frequency 1 → distance 5) and gives 6. -/
example : (findK (κ := ℚ) (F := ℚ) (fun n k => (List.range n).map (fun i => ((i + 1 : ℕ) : ℚ) * k))
    (fun n _ => (List.range n).map (fun i => ((i + 1 : ℕ) : ℚ))) 6 1 2 (fun _ => 1)
    (fun _ k0 => .ask k0 (fun fv => .ret (k0 - fv.1 / fv.2))) 8 [0]).map (fun r => (r.1, r.2.numBands, r.2.kPoints)) =
      some ([6, 3], 8, [0]) := by decide +kernel

end Mpb.FindK
