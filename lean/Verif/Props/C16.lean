import Verif.Lemmas.Progress
import Verif.Lemmas.Formed
import Verif.Props.C12

/-!
# C16 - The backup pipeline cannot hang

`Step` has a step for everything some thread can do next, so a state without steps is one in
which every thread waits for another.
-/

namespace Backpak.C16

open Pipeline

variable {Id : Type} [LinearOrder Id]

/-- What a command gives the pipeline: packs to upload that are in the working directory, then
blobs to send, none empty, none twice, none that is in a pack the starting index lists. The packs
that may be formed from the blobs, and those there before, have different names. -/
structure Given (c : Cfg Id) (w : World Id) (ups : List Id) (bl : List (Blob Id)) : Prop where
  world : WorldOk c w
  upsNodup : ups.Nodup
  upsHere : ∀ p ∈ ups, p ∈ BMap.keys w.cwd.packs
  sorted : BMap.Sorted c.start.packs
  nonempty : ∀ b ∈ bl, b.data ≠ []
  nodup : bl.Nodup
  start : ∀ p m, (p, m) ∈ c.start.packs → ∃ bs, Good c p bs ∧ m = Pack.manifestOf bs ∧
    ∀ b ∈ bl, b ∉ bs
  allowed : ∀ bs, FormedBy (ups.map .up ++ bl.map .send) bs → c.allowed bs
  inj : ∀ a b, c.allowed a → c.allowed b →
    c.ids.packId (Pack.manifestOf a) = c.ids.packId (Pack.manifestOf b) → a = b

theorem sends_main (ups : List Id) (bl : List (Blob Id)) :
    sends (ups.map Op.up ++ bl.map Op.send) = bl := by
  induction ups with
  | nil =>
    simp only [List.map_nil, List.nil_append]
    induction bl with
    | nil => rfl
    | cons b bl ih => simpa [sends] using ih
  | cons p ups ih => simpa [sends] using ih

/-- With four cores or more, in every state that is not finished some thread can go on: no
schedule deadlocks. -/
theorem never_stuck_partial (c : Cfg Id) (w : World Id) (ups : List Id) (bl : List (Blob Id)) (s : State Id)
    (hcores : 4 ≤ c.cores) (hg : Given c w ups bl)
    (h : Reachable c w (ups.map .up ++ bl.map .send) s) (hj : s.joined = false) :
    ∃ t, Step c s t := by
  have hne : ∀ b ∈ sends (ups.map Op.up ++ bl.map Op.send), b.data ≠ [] := by
    rw [sends_main]; exact hg.nonempty
  have hd : s.ix ≠ .dead := by
    refine not_dead hg.world hg.sorted hne hg.inj (by rw [sends_main]; exact hg.nodup) ?_ h
    rw [sends_main]
    exact hg.start
  obtain ⟨ups', hs⟩ := shape hg.upsNodup hg.upsHere h
  refine progress (ctl h) hs hcores ?_ hd hj
  intro k cur hk hcur
  obtain ⟨pre, hp⟩ := inOrder h k
  rw [hk] at hp
  exact hg.allowed cur ⟨hcur, k, pre, _, hp⟩

/-- No schedule goes on for ever: a run takes at most as many steps as this number, which
depends only on what the pipeline is given. -/
theorem runs_end (c : Cfg Id) (f : Nat → State Id) (n : Nat)
    (h : ∀ i < n, Step c (f i) (f (i + 1))) : n ≤ (f 0).cost := by
  have : ∀ m ≤ n, (f m).cost + m ≤ (f 0).cost := by
    intro m
    induction m with
    | zero => simp
    | succ m ih =>
      intro hm
      have h1 := ih (by omega)
      have h2 := cost_step (h m (by omega))
      omega
  have := this n (Nat.le_refl n)
  omega

theorem start_cost (c : Cfg Id) (w : World Id) (main : List (Op Id)) :
    (init c w main).cost ≤ 12 * main.length + 16 := by
  have : (init c w main).ix.cost ≤ 7 := by
    simp only [init]; split <;> simp [IndexerState.cost]
  simp only [State.cost]
  simp only [init, cost_recv, UploaderState.cost, List.length_nil] at this ⊢
  simp only [Bool.false_eq_true, if_false]
  omega

/-- So from wherever a run has got to, whatever the threads do next, it finishes; here as: there
is a finish, and every state without further steps is one. -/
theorem finishes_partial (c : Cfg Id) (w : World Id) (ups : List Id) (bl : List (Blob Id)) (s : State Id)
    (hcores : 4 ≤ c.cores) (hg : Given c w ups bl)
    (h : Reachable c w (ups.map .up ++ bl.map .send) s) :
    (∃ t, Relation.ReflTransGen (Step c) s t ∧ t.joined = true) ∧
    ∀ t, Relation.ReflTransGen (Step c) s t → (¬ ∃ u, Step c t u) → t.joined = true := by
  have h2 : ∀ t, Relation.ReflTransGen (Step c) s t → (¬ ∃ u, Step c t u) → t.joined = true := by
    intro t ht hst
    by_contra hj
    exact hst (never_stuck_partial c w ups bl t hcores hg (h.trans ht) (by simpa using hj))
  obtain ⟨t, ht, hst⟩ := run_on (c := c) s
  exact ⟨⟨t, ht, h2 t ht hst⟩, h2⟩

/-- The indexer never sees a pack twice, so the command does not abort. -/
theorem never_aborts (c : Cfg Id) (w : World Id) (ups : List Id) (bl : List (Blob Id)) (s : State Id)
    (hg : Given c w ups bl) (h : Reachable c w (ups.map .up ++ bl.map .send) s) : s.ix ≠ .dead := by
  refine not_dead hg.world hg.sorted (by rw [sends_main]; exact hg.nonempty) hg.inj
    (by rw [sends_main]; exact hg.nodup) ?_ h
  rw [sends_main]
  exact hg.start

/-- With three cores or fewer, no backup with both a non-empty chunk and a non-empty tree to
send ever finishes: whatever the schedule, it ends up with every thread waiting. -/
theorem few_cores_hang (c : Cfg Id) (w : World Id) (main : List (Op Id)) (s : State Id)
    (hcores : c.cores ≤ 3)
    (hwork : ∀ k, ∃ b ∈ sends main, b.kind = k ∧ b.data ≠ [])
    (h : Reachable c w main s) :
    s.joined = false ∧ ∃ t, Relation.ReflTransGen (Step c) s t ∧ t.joined = false ∧ ¬ ∃ u, Step c t u := by
  have key : ∀ s, Reachable c w main s → s.joined = false := by
    intro s h
    refine (reach_induct (P := Stalled) ?_ (fun _ _ => stalled_step hcores) h).joined
    refine ⟨by simp [init], by simp [init], by simp [init], ?_, rfl, ?_, rfl⟩
    · simp only [init]; split <;> rfl
    · simpa [init, PackerState.hold] using hwork
  obtain ⟨t, ht, hst⟩ := run_on (c := c) s
  exact ⟨key s h, t, ht, key t (h.trans ht), hst⟩

/-- Two packs with the same manifest name are the same, for the example's naming. -/
example : Given ⟨C12.exIds, true, 4, Index.empty, fun bs => bs = [] ∨ bs = [C12.exBlob]⟩ C12.exWorld []
    [C12.exBlob] := by
  refine ⟨⟨by simp [C12.exWorld], by simp [C12.exWorld], by simp [C12.exWorld], by simp [C12.exWorld]⟩,
    .nil, by simp, by simp [Index.empty], by simp [C12.exBlob], by simp, by simp [Index.empty], ?_, ?_⟩
  · rintro bs ⟨hne, k, hbs⟩
    have hbs := hbs.sublist.trans List.filter_sublist
    rw [sends_main] at hbs
    rcases List.sublist_singleton.mp hbs with rfl | rfl
    · exact absurd rfl hne
    · exact .inr rfl
  · rintro a b (rfl | rfl) (rfl | rfl) h <;>
      simp_all [C12.exIds, Pack.manifestOf, C12.exBlob, Pack.entryOf]

example : ∀ k : Kind, ∃ b ∈ sends [Op.send (⟨[1], 1, .chunk⟩ : Blob Nat), .send ⟨[2], 2, .tree⟩],
    b.kind = k ∧ b.data ≠ [] := by
  intro k
  cases k <;> simp [sends]

end Backpak.C16
