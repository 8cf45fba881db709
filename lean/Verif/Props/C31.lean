import Verif.Lemmas.FilterSnapshot
import Verif.Lemmas.FilterSame
import Verif.Lemmas.CheckRun
import Verif.Lemmas.DemoPrune
import Verif.Lemmas.ReadBack

/-!
# C31 - Filtering a snapshot removes exactly the skipped paths

`Holds` says which file tree an ID stands for in a repository, with every byte of every file found
through its live indexes; `keep filter` is a file tree less the paths the filter rejects.
-/

namespace Backpak.C31

open Spec Pipeline

set_option linter.unusedSectionVars false

variable {Id : Type} [LinearOrder Id] {C : Codec Id} {ids : Ids Id} {cores : Nat} {R : Repo Id}
  {src : Source Id} {target : Snap Id} {filter : Path → Bool} {a : FilterArgs} {plan : Plan Id}

/-! ## Trees that do not change -/

/-- Following names down from a tree leads to another, given which tree an ID stands for. -/
inductive SubtreeAt (T : Id → Tree Id → Prop) : Id → Path → Id → Prop
  | here {u} : SubtreeAt T u [] u
  | down {u t n j md p v} : T u t → (n, ⟨.dir j, md⟩) ∈ t → SubtreeAt T j p v → SubtreeAt T u (n :: p) v

theorem SubtreeAt.mono {T T' : Id → Tree Id → Prop} (hT : ∀ u t, T u t → T' u t) {u v : Id} {p : Path}
    (h : SubtreeAt T u p v) : SubtreeAt T' u p v := by
  induction h with
  | here => exact .here
  | down h1 h2 _ ih => exact .down (hT _ _ h1) h2 ih

/-- The new nodes make a proper tree. -/
theorem filterNodes_okTree {down : Path → Id → Id × List (Blob Id)} {path : Path} {t : Tree Id}
    (h : Serde.OkTree t) : Serde.OkTree (filterNodes filter down path t).1 := by
  have key : ∀ t : Tree Id, (BMap.keys (filterNodes filter down path t).1).Sublist (BMap.keys t) ∧
      ∀ e ∈ (filterNodes filter down path t).1, ∃ e' ∈ t, e.1 = e'.1 ∧ e.2.md = e'.2.md ∧
        (Serde.OkContents e'.2.contents → Serde.OkContents e.2.contents) := by
    intro t
    induction t with
    | nil => exact ⟨.slnil, by simp [filterNodes]⟩
    | cons e t ih =>
      obtain ⟨n, x⟩ := e
      obtain ⟨h1, h2⟩ := ih
      simp only [filterNodes]
      split
      · refine ⟨h1.cons _, fun e he => ?_⟩
        obtain ⟨e', he', h⟩ := h2 e he
        exact ⟨e', List.mem_cons_of_mem _ he', h⟩
      · cases hx : x.contents with
        | file cs =>
          refine ⟨h1.cons_cons _, fun e he => ?_⟩
          rcases List.mem_cons.mp he with rfl | he
          · exact ⟨_, List.mem_cons_self, rfl, rfl, fun h => h⟩
          · obtain ⟨e', he', h⟩ := h2 e he
            exact ⟨e', List.mem_cons_of_mem _ he', h⟩
        | link tgt =>
          refine ⟨h1.cons_cons _, fun e he => ?_⟩
          rcases List.mem_cons.mp he with rfl | he
          · exact ⟨_, List.mem_cons_self, rfl, rfl, fun h => h⟩
          · obtain ⟨e', he', h⟩ := h2 e he
            exact ⟨e', List.mem_cons_of_mem _ he', h⟩
        | dir j =>
          refine ⟨h1.cons_cons _, fun e he => ?_⟩
          rcases List.mem_cons.mp he with rfl | he
          · exact ⟨_, List.mem_cons_self, rfl, rfl, fun _ => trivial⟩
          · obtain ⟨e', he', h⟩ := h2 e he
            exact ⟨e', List.mem_cons_of_mem _ he', h⟩
  obtain ⟨h1, h2⟩ := key t
  refine ⟨List.Pairwise.sublist h1 h.sorted, ?_, ?_, ?_, ?_⟩
  · have := h1.length_le
    simp only [BMap.keys, List.length_map] at this
    exact Nat.lt_of_le_of_lt this h.len
  · intro e he
    obtain ⟨e', he', h3, _⟩ := h2 e he
    rw [h3]
    exact h.names e' he'
  · intro e he
    obtain ⟨e', he', _, _, h3⟩ := h2 e he
    exact h3 (h.contents e' he')
  · intro e he
    obtain ⟨e', he', _, h3, _⟩ := h2 e he
    rw [h3]
    exact h.mds e' he'

/-- A subtree below which nothing is skipped is found at its path in the new trees, with its ID. -/
theorem filterTree_at {F : Forest Id} (hS : Sound C R) (hF : ∀ id t, InForest F id t → TreeAt C R id t)
    {u v : Id} {p : Path} (h : SubtreeAt (TreeAt C R) u p v) : ∀ (k : Nat) (path : Path),
    Tall (InForest F) k u →
    (∀ q, q ≠ [] → q <+: p → filter (path ++ q) = true) →
    (∀ d, Holds C R v d → keep filter (fun n => path ++ p ++ [n]) d = d) → (∃ d, Holds C R v d) →
    SubtreeAt (fun i t => Serde.OkTree t ∧ (⟨C.encTree t, i, .tree⟩ : Blob Id) ∈ (filterTree C filter F k path u).2)
      (filterTree C filter F k path u).1 p v := by
  induction h with
  | here =>
    rintro k path ht _ hk ⟨d, hd⟩
    rw [filterTree_same hS hF hd k path ht (by simpa using hk d hd)]
    exact .here
  | @down u t n j md p v h1 h2 h3 ih =>
    rintro k path ht hf hk hd
    cases k with
    | zero => exact ht.elim
    | succ k =>
      obtain ⟨t', h4, h5⟩ := ht
      obtain rfl := hS.treeAt_one (hF _ _ h4) h1
      have hn : filter (path ++ [n]) = true := hf [n] (by simp) ⟨p, rfl⟩
      have hsub := ih k (path ++ [n]) (h5 j ⟨n, md, h2⟩)
        (fun q h6 h7 => by
          have := hf (n :: q) (by simp) (by obtain ⟨x, hx⟩ := h7; exact ⟨x, by simp [hx]⟩)
          simpa using this)
        (fun d hd => by simpa using hk d hd) hd
      obtain ⟨h6, h7⟩ := filterNodes_mem (down := filterTree C filter F k) hn h2
      unfold InForest at h4
      have hcall : filterTree C filter F (k + 1) path u =
          (C.hash (C.encTree (filterNodes filter (filterTree C filter F k) path t').1),
            (filterNodes filter (filterTree C filter F k) path t').2 ++
            [⟨C.encTree (filterNodes filter (filterTree C filter F k) path t').1,
              C.hash (C.encTree (filterNodes filter (filterTree C filter F k) path t').1), .tree⟩]) := by
        rw [filterTree, h4]
      rw [hcall]
      refine .down ⟨filterNodes_okTree h1.1, ?_⟩ h6
        (hsub.mono (fun i t hb => ⟨hb.1, List.mem_append_left _ (h7 _ hb.2)⟩))
      exact List.mem_append_right _ (List.mem_singleton_self _)

/-! ## The command -/

/-- At every instant of filter-snapshot, whenever it is interrupted, the repository is in good
order, every snapshot that was there is there, and stands for what it stood for. -/
theorem others_untouched_partial (w w' : World Id) (h : FilterOk C ids w src target)
    (hN : FilterNoClash C ids cores w src target filter plan)
    (hp : filterPlan C src target filter a = .ok plan)
    (hi : Instant (liveCfg ids cores plan.start) w plan.main plan.posts w') :
    Healthy C ids w'.repo ∧ (∀ i sn, (i, sn) ∈ w.repo.snapshots → (i, sn) ∈ w'.repo.snapshots) ∧
    ∀ i d, Holds C w.repo i d → Holds C w'.repo i d := by
  cases hi with
  | during s hs =>
    obtain ⟨h1, h2, h3, _⟩ := filter_run h hN hp hs
    exact ⟨h1, fun i sn hm => by rw [h2]; exact hm, fun i d hd => has_mono_holds h3 hd⟩
  | after s done rest hs hj hd =>
    obtain ⟨h1, h2, h3, F, cache, d, root, _, _, _, _, h4, h5⟩ := filter_run h hN hp hs
    obtain ⟨h5, _⟩ := h5 hj
    have hcase : done = [] ∨ ∃ sn, sn.tree = root ∧ done = [.putSnap sn] ∧ .putSnap sn ∈ plan.posts := by
      rw [h4] at hd
      split at hd
      · left; exact (List.append_eq_nil_iff.mp hd.symm).1
      · split at hd
        · left; exact (List.append_eq_nil_iff.mp hd.symm).1
        · rename_i hr hdry
          cases done with
          | nil => exact .inl rfl
          | cons o done =>
            right
            simp only [List.cons_append, List.cons.injEq] at hd
            obtain ⟨rfl, hd⟩ := hd
            rw [(List.append_eq_nil_iff.mp hd.symm).1, h4, if_neg hr, if_neg hdry]
            refine ⟨_, ?_, rfl, List.mem_singleton_self _⟩
            unfold filteredSnap
            split <;> rfl
    rcases hcase with rfl | ⟨sn, hroot, rfl, hsn⟩
    · exact ⟨h1, fun i sn hm => by rw [List.foldl_nil, h2]; exact hm, fun i d hd => has_mono_holds h3 hd⟩
    · simp only [liveCfg_ids]
      have hone := puts_snaps [sn] (R := s.world.repo) (ids := ids) h1.snapshots_sorted (by simp)
      refine ⟨puts_healthy [sn] h1 ?_, ?_, ?_⟩
      · intro sn' hm
        obtain rfl := List.mem_singleton.mp hm
        exact ⟨_, by rw [hroot]; exact h5⟩
      · intro i sn' hm
        refine hone.2 i sn' (by rw [h2]; exact hm) ?_
        intro x hx he
        obtain rfl := List.mem_singleton.mp hx
        exact (hN.snaps x hsn sn' (by rw [he]; exact hm)).symm
      · exact fun i d hd => has_mono_holds (fun b hb => puts_has [sn] (h3 b hb)) hd

/-- Whatever an interrupted backup left that could be resumed, can be at every instant of
filter-snapshot, or is gone; so the next command can start. -/
theorem next_can_start (w w' : World Id) (h : FilterOk C ids w src target) (hL : Leftover C ids w)
    (hN : FilterNoClash C ids cores w src target filter plan)
    (hp : filterPlan C src target filter a = .ok plan)
    (hi : Instant (liveCfg ids cores plan.start) w plan.main plan.posts w') : Leftover C ids w' := by
  cases hi with
  | during s hs => exact filter_left h hL hN hp hs
  | after s done rest hs hj hd =>
    have hl := filter_left h hL hN hp hs
    obtain ⟨_, _, _, _, _, _, _, _, _, _, _, h4, _⟩ := filter_run h hN hp hs
    obtain ⟨l, rfl⟩ : ∃ l : List (Snapshot Id), done = l.map Post.putSnap := by
      have hall : ∀ o ∈ plan.posts, ∃ sn, o = Post.putSnap sn := by
        rw [h4]
        intro o ho
        split at ho
        · cases ho
        · split at ho
          · cases ho
          · exact ⟨_, List.mem_singleton.mp ho⟩
      have hall : ∀ o ∈ done, ∃ sn, o = Post.putSnap sn := fun o ho =>
        hall o (by rw [hd]; exact List.mem_append_left _ ho)
      clear hd
      induction done with
      | nil => exact ⟨[], rfl⟩
      | cons o done ih =>
        obtain ⟨sn, rfl⟩ := hall _ List.mem_cons_self
        obtain ⟨l, rfl⟩ := ih (fun o ho => hall o (List.mem_cons_of_mem _ ho))
        exact ⟨sn :: l, rfl⟩
    exact puts_leftover l hl

/-- When filter-snapshot has finished (and was not a dry run): if nothing is skipped then the
snapshots are those that were there. Otherwise there is one with the target's paths, the old or
the given author, time and tags, whose tree stands for the target's file tree less exactly what is
skipped. -/
theorem filtered_partial (w w' : World Id) (h : FilterOk C ids w src target)
    (hN : FilterNoClash C ids cores w src target filter plan) (hdry : a.dryRun = false)
    (hp : filterPlan C src target filter a = .ok plan)
    (hi : Finished (liveCfg ids cores plan.start) w plan.main plan.posts w') :
    ∃ d, Holds C w.repo target.1.tree d ∧
      (keep filter (fun n => [n]) d = d → w'.repo.snapshots = w.repo.snapshots) ∧
      (keep filter (fun n => [n]) d ≠ d → ∃ sn, (ids.snapId sn, sn) ∈ w'.repo.snapshots ∧
        Holds C w'.repo sn.tree (keep filter (fun n => [n]) d) ∧ sn.paths = target.1.paths ∧
        (a.keepMetadata = true → sn.author = target.1.author ∧ sn.time = target.1.time ∧
          sn.tz = target.1.tz ∧ sn.tags = target.1.tags) ∧
        (a.keepMetadata = false → sn.author = a.author ∧ sn.time = a.now ∧ sn.tz = a.tz ∧ sn.tags = a.tags)) := by
  cases hi with
  | mk s hs hj =>
    obtain ⟨h1, h2, h3, F, cache, d, root, hF, hd, hroot, _, h4, h5⟩ := filter_run h hN hp hs
    obtain ⟨h5, _⟩ := h5 hj
    have hS := h.healthy.sound
    have hFo : ForestOf C w.repo target.1.tree F := C23.forest_exact hS h.opens _ _ F cache newTreeCache_ok hF
    refine ⟨d, hd, fun hk => ?_, fun hk => ?_⟩
    · have : root = target.1.tree := by
        rw [hroot]
        refine filterTree_same hS (fun id t hi => ((hFo id t).mp hi).2) hd _ _ ?_ hk
        exact (hFo.tall (holds_grounded hd)).mono (Nat.le_succ _)
      rw [h4, if_pos this]
      exact h2
    · have hne : root ≠ target.1.tree := by
        rintro rfl
        exact hk (holds_one h1.sound h5 (has_mono_holds h3 hd))
      simp only [liveCfg_ids]
      rw [h4, if_neg hne, hdry]
      simp only [Bool.false_eq_true, if_false, List.foldl_cons, List.foldl_nil]
      refine ⟨filteredSnap a target.1 root, (BMap.mem_insert_iff h1.snapshots_sorted).mpr (.inl ⟨rfl, rfl⟩), ?_, ?_⟩
      · have : (filteredSnap a target.1 root).tree = root := by unfold filteredSnap; split <;> rfl
        rw [this]
        exact holds_snaps h5
      · unfold filteredSnap
        split
        · rename_i hkm
          exact ⟨rfl, fun _ => ⟨rfl, rfl, rfl, rfl⟩, fun hk => by rw [hkm] at hk; cases hk⟩
        · rename_i hkm
          exact ⟨rfl, fun hk => absurd hk hkm, fun _ => ⟨rfl, rfl, rfl, rfl⟩⟩

/-- Every subdirectory that is kept and below which nothing is skipped is in the new snapshot at
the same path with the same ID. -/
theorem subtrees_untouched_partial (w w' : World Id) (h : FilterOk C ids w src target)
    (hN : FilterNoClash C ids cores w src target filter plan) (hdry : a.dryRun = false)
    (hp : filterPlan C src target filter a = .ok plan)
    (hi : Finished (liveCfg ids cores plan.start) w plan.main plan.posts w')
    (p : Path) (v : Id) (d : Dir Bytes) (hv : SubtreeAt (TreeAt C w.repo) target.1.tree p v)
    (hd : Holds C w.repo v d) (hpath : ∀ q, q ≠ [] → q <+: p → filter q = true)
    (hbelow : keep filter (fun n => p ++ [n]) d = d) (sn : Snapshot Id) (hsn : .putSnap sn ∈ plan.posts) :
    SubtreeAt (TreeAt C w'.repo) sn.tree p v := by
  cases hi with
  | mk s hs hj =>
    obtain ⟨h1, h2, h3, F, cache, d0, root, hF, hd0, hroot, _, h4, h5⟩ := filter_run h hN hp hs
    obtain ⟨h5, h6⟩ := h5 hj
    have hS := h.healthy.sound
    have hFo : ForestOf C w.repo target.1.tree F := C23.forest_exact hS h.opens _ _ F cache newTreeCache_ok hF
    have hsn' : sn.tree = root ∧ plan.posts = [.putSnap sn] := by
      rw [h4] at hsn ⊢
      split at hsn
      · cases hsn
      · rename_i hne
        rw [hdry] at hsn ⊢
        simp only [Bool.false_eq_true, if_false, List.mem_singleton, Post.putSnap.injEq] at hsn ⊢
        subst hsn
        refine ⟨?_, by rw [if_neg hne]⟩
        unfold filteredSnap
        split <;> rfl
    have hat := filterTree_at (filter := filter) (F := F) hS (fun id t hi => ((hFo id t).mp hi).2) hv (F.length + 1) []
      ((hFo.tall (holds_grounded hd0)).mono (Nat.le_succ _)) (by simpa using hpath)
      (fun d' hd' => by rw [holds_one hS hd' hd]; simpa using hbelow) ⟨d, hd⟩
    rw [← hroot, ← hsn'.1] at hat
    refine hat.mono (fun i t hb => ?_)
    obtain ⟨h7, _, h8⟩ := h6 _ hb.2
    simp only [liveCfg_ids]
    refine ⟨hb.1, h7.hash, .inr ?_⟩
    rw [hsn'.2]
    exact puts_has [sn] h8

/-- Filter-snapshot of a snapshot of a repository in good order gets as far as starting its
threads. -/
theorem plans (w : World Id) (h : FilterOk C ids w src target) (filter : Path → Bool) (a : FilterArgs) :
    ∃ plan, filterPlan C src target filter a = .ok plan := filter_succeeds h filter a

/-- With four cores or more it then finishes, from wherever it has got to. -/
theorem finishes (w : World Id) (h : FilterOk C ids w src target)
    (hN : FilterNoClash C ids cores w src target filter plan)
    (hp : filterPlan C src target filter a = .ok plan) (hcores : 4 ≤ cores) (hcwd : BMap.Sorted w.cwd.packs)
    (s : State Id) (hs : Reachable (liveCfg ids cores plan.start) w plan.main s) :
    ∃ t, Relation.ReflTransGen (Step (liveCfg ids cores plan.start)) s t ∧ t.joined = true := by
  obtain ⟨F, cache, known, d, L, root, hF, hk, hd, hrep, hroot, hL, hstart, hmain, hposts⟩ := filterPlan_ok h hp
  obtain ⟨hfresh, _⟩ := filter_fresh h hN hF hk hrep hL
  obtain ⟨v, hs', _⟩ := reachable_noWip rfl (by show plan.start.isEmpty = true; rw [hstart]; rfl) hs
  have hpk := hN.packs
  rw [hmain] at hpk hs'
  rw [hstart] at hs' ⊢
  obtain ⟨t, h1, h2⟩ := add_finishes (w := noWip w) hcores h.healthy (leftover_noWip h) hcwd (resume_noWip w)
    hfresh hpk hs'
  obtain ⟨v', h3⟩ := steps_setWip rfl h1 s.world.cwd.wip
  exact ⟨setWip t v', h3, h2⟩

/-! ## Missing chunks -/

theorem offer_packed {s : Sends Id} {b : Blob Id} {c : Id} (h : c ∈ (offer s b).packed) :
    c ∈ s.packed ∨ (c = b.id ∧ b ∈ (offer s b).sent) := by
  unfold offer at h ⊢
  split
  · rename_i hb
    rw [if_pos hb] at h
    exact .inl h
  · rename_i hb
    rw [if_neg hb] at h
    rcases List.mem_cons.mp h with rfl | h
    · exact .inr ⟨rfl, by simp⟩
    · exact .inl h

/-- What is known after some trees were sent: what was known before, and they. -/
def Knows (known : List Id) (s : Sends Id) : Prop :=
  ∀ c ∈ s.packed, c ∈ known ∨ ∃ b ∈ s.sent, b.kind = .tree ∧ b.id = c

theorem offer_sent {s : Sends Id} {b : Blob Id} : ∀ x ∈ s.sent, x ∈ (offer s b).sent := by
  intro x hx
  unfold offer
  split
  · exact hx
  · exact List.mem_append_left _ hx

/-- A file met on the way down through what is not skipped. -/
def MetFile (filter : Path → Bool) (F : Forest Id) (path : Path) (u : Id) (cs : List Id) : Prop :=
  ∃ p v t n md, SubtreeAt (fun i t => F.get? i = some t) u p v ∧ F.get? v = some t ∧ (n, ⟨.file cs, md⟩) ∈ t ∧
    ∀ q, q ≠ [] → q <+: p ++ [n] → filter (path ++ q) = true

theorem walkNodes_chunks {F : Forest Id} {known : List Id} {down : Path → Id → Sends Id → Res (Id × Sends Id)}
    (hdown : ∀ path u s r, Knows known s → down path u s = .ok r → Knows known r.2 ∧ (∀ x ∈ s.sent, x ∈ r.2.sent) ∧
      ∀ cs, MetFile filter F path u cs → ∀ c ∈ cs, c ∈ known ∨ ∃ b ∈ r.2.sent, b.kind = .tree ∧ b.id = c)
    (path : Path) (t : Tree Id) : ∀ (acc : Tree Id) (s : Sends Id) (r : Tree Id × Sends Id), Knows known s →
    filterWalkNodes filter down path t acc s = .ok r → Knows known r.2 ∧ (∀ x ∈ s.sent, x ∈ r.2.sent) ∧
      ∀ n x, (n, x) ∈ t → filter (path ++ [n]) = true →
        (∀ cs, x.contents = .file cs → ∀ c ∈ cs, c ∈ known ∨ ∃ b ∈ r.2.sent, b.kind = .tree ∧ b.id = c) ∧
        (∀ u, x.contents = .dir u → ∀ cs, MetFile filter F (path ++ [n]) u cs →
          ∀ c ∈ cs, c ∈ known ∨ ∃ b ∈ r.2.sent, b.kind = .tree ∧ b.id = c) := by
  induction t with
  | nil =>
    intro acc s r hs h
    cases h
    exact ⟨hs, fun _ h => h, fun _ _ h => by cases h⟩
  | cons e t ih =>
    obtain ⟨m, y⟩ := e
    intro acc s r hs h
    unfold filterWalkNodes at h
    split at h
    · rename_i hf
      obtain ⟨h1, h2, h3⟩ := ih acc s r hs h
      refine ⟨h1, h2, fun n x hx hn => ?_⟩
      rcases List.mem_cons.mp hx with he | hx
      · cases he
        rw [hf] at hn
        cases hn
      · exact h3 n x hx hn
    · split at h
      · cases h
      · rename_i z s' hz
        split at h
        · cases h
        · have hstep : Knows known s' ∧ (∀ x ∈ s.sent, x ∈ s'.sent) ∧
              (∀ cs, y.contents = .file cs → ∀ c ∈ cs, c ∈ known ∨ ∃ b ∈ s'.sent, b.kind = .tree ∧ b.id = c) ∧
              (∀ u, y.contents = .dir u → ∀ cs, MetFile filter F (path ++ [m]) u cs →
                ∀ c ∈ cs, c ∈ known ∨ ∃ b ∈ s'.sent, b.kind = .tree ∧ b.id = c) := by
            unfold filterWalkNode at hz
            split at hz
            · rename_i cs hcs
              split at hz
              · rename_i hall
                cases hz
                refine ⟨hs, fun _ h => h, ?_, fun u hu => by rw [hcs] at hu; cases hu⟩
                intro cs' hcs' c hc
                rw [hcs] at hcs'
                cases hcs'
                exact hs c (of_decide_eq_true (List.all_eq_true.mp hall c hc))
              · cases hz
            · rename_i tgt hcs
              cases hz
              exact ⟨hs, fun _ h => h, (fun _ h => by rw [hcs] at h; cases h), (fun _ h => by rw [hcs] at h; cases h)⟩
            · rename_i sub hcs
              cases hd : down (path ++ [m]) sub s with
              | error e => rw [hd] at hz; cases hz
              | ok r' =>
                rw [hd] at hz
                cases hz
                obtain ⟨k1, k2, k3⟩ := hdown _ _ _ _ hs hd
                refine ⟨k1, k2, (fun _ h => by rw [hcs] at h; cases h), fun u hu => ?_⟩
                rw [hcs] at hu
                cases hu
                exact k3
          obtain ⟨g1, g2, g3, g4⟩ := hstep
          obtain ⟨h1, h2, h3⟩ := ih _ s' r g1 h
          have up : ∀ {c : Id}, (c ∈ known ∨ ∃ b ∈ s'.sent, b.kind = .tree ∧ b.id = c) →
              c ∈ known ∨ ∃ b ∈ r.2.sent, b.kind = .tree ∧ b.id = c :=
            fun h => h.imp (fun e => e) (fun ⟨b, hb, e⟩ => ⟨b, h2 b hb, e⟩)
          refine ⟨h1, fun x hx => h2 x (g2 x hx), fun n x hx hn => ?_⟩
          rcases List.mem_cons.mp hx with he | hx
          · cases he
            exact ⟨fun cs hcs c hc => up (g3 cs hcs c hc), fun u hu cs hcs c hc => up (g4 u hu cs hcs c hc)⟩
          · exact h3 n x hx hn

theorem walk_chunks {F : Forest Id} {known : List Id} (k : Nat) : ∀ path u s r, Knows known s →
    filterWalk C filter F k path u s = .ok r → Knows known r.2 ∧ (∀ x ∈ s.sent, x ∈ r.2.sent) ∧
      ∀ cs, MetFile filter F path u cs → ∀ c ∈ cs, c ∈ known ∨ ∃ b ∈ r.2.sent, b.kind = .tree ∧ b.id = c := by
  induction k with
  | zero => intro path u s r _ h; cases h
  | succ k ih =>
    intro path u s r hs h
    unfold filterWalk at h
    split at h
    · cases h
    · rename_i t ht
      split at h
      · cases h
      · rename_i t' s' hn
        cases h
        obtain ⟨h1, h2, h3⟩ := walkNodes_chunks ih path t [] s _ hs hn
        refine ⟨?_, fun x hx => offer_sent x (h2 x hx), ?_⟩
        · intro c hc
          rcases offer_packed hc with hc | ⟨rfl, hb⟩
          · exact (h1 c hc).imp (fun e => e) (fun ⟨b, hb, e⟩ => ⟨b, offer_sent b hb, e⟩)
          · exact .inr ⟨_, hb, rfl, rfl⟩
        · rintro cs ⟨p, v, tv, n, md, hp, hv, hmem, hq⟩ c hc
          refine Or.imp (fun e => e) (fun ⟨b, hb, e⟩ => ⟨b, offer_sent b hb, e⟩)
            (?_ : c ∈ known ∨ ∃ b ∈ s'.sent, b.kind = .tree ∧ b.id = c)
          cases hp with
          | here =>
            rw [ht] at hv
            cases hv
            exact (h3 n _ hmem (hq [n] (by simp) (by simp))).1 cs rfl c hc
          | @down _ t1 m j md' p _ ht1 hm1 hp1 =>
            rw [ht] at ht1
            cases ht1
            refine (h3 m _ hm1 (hq [m] (by simp) (by simp))).2 j rfl cs ⟨p, v, tv, n, md, hp1, hv, hmem, ?_⟩ c hc
            intro q hq0 hq1
            have := hq (m :: q) (by simp) (by simpa using hq1)
            simpa using this

/-- In any repository, whatever is wrong with it: filter-snapshot only goes ahead if every chunk of
every file that is left is listed in an index (or is the ID of a tree that is sent). -/
theorem no_missing_chunks (hp : filterPlan C src target filter a = .ok plan) :
    ∃ F cache, forestFromRoot C src target.1.tree (newTreeCache C) = .ok (F, cache) ∧
      ∀ cs, MetFile filter F [] target.1.tree cs → ∀ c ∈ cs, c ∈ listedIds src.index ∨
        ∃ b ∈ sends plan.main, b.kind = .tree ∧ b.id = c := by
  unfold filterPlan at hp
  split at hp
  · cases hp
  · rename_i F cache hF
    split at hp
    · cases hp
    · rename_i known hk
      split at hp
      · cases hp
      · rename_i root s hs
        cases hp
        refine ⟨F, cache, hF, fun cs hcs c hc => ?_⟩
        have h0 : Knows (BMap.keys known) (⟨BMap.keys known, []⟩ : Sends Id) := fun c hc => .inl hc
        have hsend : sends (s.sent.map Op.send) = s.sent := by
          generalize s.sent = l
          induction l with
          | nil => rfl
          | cons b l ih => simp [sends]
        rw [hsend, ← blobIds_iff hk]
        exact (walk_chunks _ _ _ _ _ h0 hs).2.2 cs hcs c hc

/-! ## An example -/

/-- Names as elsewhere, but an index is named by whether it lists chunks, so that all the indexes
filter-snapshot could write have one name. -/
def ids1 : Ids ObjectId :=
  { Demo.pruneIds with
    indexId := fun x => Demo.hash [1, if x.packs.any (fun e => e.2.any (fun a => decide (a.kind = .chunk))) then 1 else 0] }

theorem indexNew1 {R : Repo ObjectId} {cores : Nat} {ss : List (Blob ObjectId)}
    (hk : ∀ b ∈ ss, b.kind = .tree)
    (h : decide (Demo.hash [1, 0] ∉ BMap.keys R.indexes ∧ ∀ e ∈ R.indexes, Demo.hash [1, 0] ∉ e.2.supersedes) = true) :
    IndexOk (liveCfg ids1 cores Index.empty) R ss := by
  rw [decide_eq_true_eq] at h
  intro x hx
  have : (liveCfg ids1 cores Index.empty).ids.indexId x = Demo.hash [1, 0] := by
    obtain ⟨_, _, news, rest, h3, _, _, h6⟩ := hx
    show Demo.hash _ = _
    rw [if_neg]
    simp only [List.any_eq_true, decide_eq_true_eq, not_exists, not_and, Prod.forall]
    intro p m hm e he hek
    have h7 := h6.subset hm
    simp only [liveCfg, Index.empty, List.nil_append, List.mem_map] at h7
    obtain ⟨⟨q, bs⟩, h8, heq⟩ := h7
    cases heq
    obtain ⟨b, hb, rfl⟩ := List.mem_map.mp he
    have := hk b (h3.subset (List.mem_append_left _ (List.mem_flatMap.mpr ⟨_, h8, hb⟩)))
    exact absurd (hek.symm.trans this) (by decide)
  rw [this]
  exact ⟨fun ⟨j, y, h1, h2⟩ => h.2 (j, y) h1 h2, fun y hy => absurd (BMap.mem_keys_of_mem hy) h.1,
    by simp [liveCfg, Index.empty]⟩

def chunkX : Blob ObjectId := Demo.blobOf .chunk [7]

/-- A directory with two files, and it less the first. -/
def treeXY : Tree ObjectId :=
  [([120], ⟨.file [chunkX.id], Demo.fileMd 1 5⟩), ([121], ⟨.file [Demo.chunkA.id], Demo.fileMd 3 5⟩)]
def treeY : Tree ObjectId := [([121], ⟨.file [Demo.chunkA.id], Demo.fileMd 3 5⟩)]

/-- That directory, another, and a file. -/
def rootOf (f : Blob ObjectId) : Tree ObjectId :=
  [([97], ⟨.dir (Demo.treeBlob treeXY).id, Demo.dirMd⟩), ([98], ⟨.dir Demo.treeB.id, Demo.dirMd⟩),
   ([99], ⟨.file [f.id], Demo.fileMd f.data.length 5⟩)]

def snapF (f : Blob ObjectId) : Snapshot ObjectId := Demo.snapOf (Demo.treeBlob (rootOf f)) 1

/-- A repository with a snapshot of those. -/
def repoF (f : Blob ObjectId) : Repo ObjectId :=
  Demo.repoOf ids1
    [[chunkX, Demo.chunkA, Demo.chunkB, f], [Demo.treeBlob treeXY, Demo.treeB, Demo.treeBlob (rootOf f)]] [snapF f]

def targetF (f : Blob ObjectId) : Snap ObjectId := (snapF f, ids1.snapId (snapF f))

/-- Leave out the file `a/x`. -/
def noX (p : Path) : Bool := decide (p ≠ [[97], [120]])

def argsF : FilterArgs := ⟨false, false, [2], [], 9, [85]⟩

def planF (f : Blob ObjectId) : Plan ObjectId :=
  Demo.planOf (filterPlan Demo.codec (Check.opened (repoF f)) (targetF f) noX argsF)

theorem filterOk_of {R : Repo ObjectId} {t : Snap ObjectId} (h : Healthy Demo.codec ids1 R)
    (ht : (t.2, t.1) ∈ R.snapshots) :
    FilterOk Demo.codec ids1 (Demo.clean R) (Check.opened R) t where
  healthy := h
  opens := Check.opened_opens h
  loaded := ht
  names := by intro p bs h; cases h

theorem healthyJ : Healthy Demo.codec ids1 (repoF Demo.junk) :=
  Check.healthy_sound (k := 3) (by decide +kernel)

theorem targetJ : ((targetF Demo.junk).2, (targetF Demo.junk).1) ∈ (repoF Demo.junk).snapshots := by decide +kernel

theorem planJ_eq : filterPlan Demo.codec (Check.opened (repoF Demo.junk)) (targetF Demo.junk) noX argsF =
    .ok (planF Demo.junk) := Demo.planOf_eq (by decide +kernel)

theorem rootJ : (match forestFromRoot Demo.codec (Check.opened (repoF Demo.junk)) (targetF Demo.junk).1.tree
      (newTreeCache Demo.codec) with
    | .ok r => decide (r.1.get? (targetF Demo.junk).1.tree = some (rootOf Demo.junk))
    | .error _ => false) = true := by decide +kernel

/-- The file at the top is met. -/
example : ∃ F cache, forestFromRoot Demo.codec (Check.opened (repoF Demo.junk)) (targetF Demo.junk).1.tree
      (newTreeCache Demo.codec) = .ok (F, cache) ∧
    MetFile noX F [] (targetF Demo.junk).1.tree [Demo.junk.id] := by
  have h := rootJ
  split at h
  · rename_i r hr
    refine ⟨r.1, r.2, hr, [], _, rootOf Demo.junk, [99], _, .here, of_decide_eq_true h,
      List.mem_cons_of_mem _ (List.mem_cons_of_mem _ List.mem_cons_self), ?_⟩
    intro q h0 hq
    have : q = [[99]] := by
      rcases List.prefix_cons_iff.mp hq with h | ⟨t, rfl, ht⟩
      · exact absurd h h0
      · simp only [List.prefix_nil] at ht; rw [ht]
    subst this
    rfl
  · cases h

def blobsF (f : Blob ObjectId) : List (Blob ObjectId) :=
  Check.blobs (repoF f) ++ filterTrees Demo.codec (Check.opened (repoF f)) (targetF f) noX

theorem blobsJ_hash : ∀ b ∈ blobsF Demo.junk, ∀ b' ∈ emptyBlob Demo.codec :: blobsF Demo.junk,
    Demo.codec.hash b.data = Demo.codec.hash b'.data → b.data = b'.data := by decide +kernel

theorem blobsJ_kind : ∀ b ∈ blobsF Demo.junk, ∀ b' ∈ blobsF Demo.junk, b.data = b'.data → b.kind = b'.kind := by
  decide +kernel

/-- The new snapshots do not have the ID of an old one. -/
def snapsNew (R : Repo ObjectId) (posts : List (Post ObjectId)) : Bool :=
  posts.all fun o =>
    match o with
    | .putSnap sn => decide (ids1.snapId sn ∉ BMap.keys R.snapshots)
    | _ => true

theorem snapsNew_sound {R : Repo ObjectId} {posts : List (Post ObjectId)} (h : snapsNew R posts = true) :
    ∀ sn, .putSnap sn ∈ posts → ∀ sn', (ids1.snapId sn, sn') ∈ R.snapshots → sn' = sn := by
  intro sn h1 sn' h2
  simp only [snapsNew, List.all_eq_true] at h
  have := h _ h1
  exact absurd (BMap.mem_keys_of_mem h2) (of_decide_eq_true this)

theorem noClash_of {R : Repo ObjectId} {t : Snap ObjectId} {plan : Plan ObjectId} {filter : Path → Bool}
    (hh : ∀ b ∈ Check.blobs R ++ filterTrees Demo.codec (Check.opened R) t filter,
      ∀ b' ∈ emptyBlob Demo.codec :: (Check.blobs R ++ filterTrees Demo.codec (Check.opened R) t filter),
      Demo.codec.hash b.data = Demo.codec.hash b'.data → b.data = b'.data)
    (hk : ∀ b ∈ Check.blobs R ++ filterTrees Demo.codec (Check.opened R) t filter,
      ∀ b' ∈ Check.blobs R ++ filterTrees Demo.codec (Check.opened R) t filter, b.data = b'.data → b.kind = b'.kind)
    (hp : Check.packsDiffer ids1 (Demo.clean R) plan.main = true)
    (hst : plan.start = Index.empty) (hsk : ∀ b ∈ sends plan.main, b.kind = .tree)
    (hi : decide (Demo.hash [1, 0] ∉ BMap.keys R.indexes ∧ ∀ e ∈ R.indexes, Demo.hash [1, 0] ∉ e.2.supersedes) = true)
    (hs : snapsNew R plan.posts = true) :
    FilterNoClash Demo.codec ids1 4 (Demo.clean R) (Check.opened R) t filter plan where
  blobs := by
    have hm : ∀ b, (Has Demo.codec (Demo.clean R).repo b ∨ b ∈ filterTrees Demo.codec (Check.opened R) t filter) →
        b ∈ Check.blobs R ++ filterTrees Demo.codec (Check.opened R) t filter := by
      rintro b (h | h)
      · exact List.mem_append_left _ (Check.has_iff.mp h).2
      · exact List.mem_append_right _ h
    exact ⟨fun b b' h h' => hh b (hm b h) b'
        (h'.elim (fun h => List.mem_cons_of_mem _ (hm b' h)) (fun e => e ▸ List.mem_cons_self)),
      fun b b' h h' => hk b (hm b h) b' (hm b' h')⟩
  packs := Check.packsDiffer_sound hp
  indexes := by rw [hst]; exact indexNew1 hsk hi
  snaps := snapsNew_sound hs

theorem noClashJ : FilterNoClash Demo.codec ids1 4 (Demo.clean (repoF Demo.junk)) (Check.opened (repoF Demo.junk))
    (targetF Demo.junk) noX (planF Demo.junk) :=
  noClash_of blobsJ_hash blobsJ_kind (by decide +kernel) (by decide +kernel) (by decide +kernel)
    (by decide +kernel) (by decide +kernel)

/-- Leaving one file out of a subdirectory makes two new trees. -/
example : FilterOk Demo.codec ids1 (Demo.clean (repoF Demo.junk)) (Check.opened (repoF Demo.junk)) (targetF Demo.junk) ∧
    FilterNoClash Demo.codec ids1 4 (Demo.clean (repoF Demo.junk)) (Check.opened (repoF Demo.junk))
      (targetF Demo.junk) noX (planF Demo.junk) ∧
    filterPlan Demo.codec (Check.opened (repoF Demo.junk)) (targetF Demo.junk) noX argsF = .ok (planF Demo.junk) ∧
    (sends (planF Demo.junk).main).length = 2 ∧ (planF Demo.junk).posts.length = 1 ∧
    ∃ w', Finished (liveCfg ids1 4 (planF Demo.junk).start) (Demo.clean (repoF Demo.junk)) (planF Demo.junk).main
      (planF Demo.junk).posts w' := by
  have hok := filterOk_of healthyJ targetJ
  refine ⟨hok, noClashJ, planJ_eq, by decide +kernel, by decide +kernel, ?_⟩
  obtain ⟨t, ht, hj⟩ := finishes _ hok noClashJ planJ_eq (Nat.le_refl 4) BMap.sorted_nil _ .refl
  exact ⟨_, .mk t ht hj⟩

/-- The directory `b` keeps its ID. -/
example : SubtreeAt (TreeAt Demo.codec (repoF Demo.junk)) (targetF Demo.junk).1.tree [[98]] Demo.treeB.id := by
  have h1 : TreeAt Demo.codec (repoF Demo.junk) (targetF Demo.junk).1.tree (rootOf Demo.junk) := by
    have h := healthyJ.sound
    obtain ⟨d, t, ht, _⟩ := healthyJ.readable _ _ targetJ
    have hb : Has Demo.codec (repoF Demo.junk) ⟨Demo.codec.encTree t, (targetF Demo.junk).1.tree, .tree⟩ := by
      rcases ht.2.2 with rfl | hb
      · have : Demo.codec.hash (Demo.codec.encTree []) ≠ (targetF Demo.junk).1.tree := by decide +kernel
        exact absurd ht.2.1 this
      · exact hb
    have hu : ∀ b ∈ Check.blobs (repoF Demo.junk), b.kind = .tree → b.id = (targetF Demo.junk).1.tree →
        b.data = Demo.codec.encTree (rootOf Demo.junk) := by decide +kernel
    have he := hu _ (Check.has_iff.mp hb).2 rfl rfl
    have hdec : Demo.codec.decTree (Demo.codec.encTree (rootOf Demo.junk)) = some (rootOf Demo.junk, []) := by
      decide +kernel
    have := Demo.codec.dec_enc t ht.1
    simp only at he
    rw [he, hdec] at this
    cases this
    exact ht
  exact .down (md := Demo.dirMd) h1 (by decide +kernel) .here

/-! ## A chunk that looks like the filtered tree

A file whose bytes are those of the new tree `a` has a chunk with the ID of that tree, so the tree
is taken to be packed already. -/

/-- Those bytes as a chunk. -/
def chunkT : Blob ObjectId := Demo.blobOf .chunk (Demo.codec.encTree treeY)

theorem healthyT : Healthy Demo.codec ids1 (repoF chunkT) := Check.healthy_sound (k := 3) (by decide +kernel)

theorem targetT : ((targetF chunkT).2, (targetF chunkT).1) ∈ (repoF chunkT).snapshots := by decide +kernel

theorem planT_eq : filterPlan Demo.codec (Check.opened (repoF chunkT)) (targetF chunkT) noX argsF =
    .ok (planF chunkT) := Demo.planOf_eq (by decide +kernel)

theorem runT : Check.run Demo.codec ids1 (Demo.clean (repoF chunkT)) (planF chunkT).start
    (sends (planF chunkT).main) = true := by decide +kernel

theorem mainT : (planF chunkT).main = mainOf [] (sends (planF chunkT).main) := by decide +kernel

/-- The new root. -/
def rootT : Tree ObjectId :=
  [([97], ⟨.dir chunkT.id, Demo.dirMd⟩), ([98], ⟨.dir Demo.treeB.id, Demo.dirMd⟩),
   ([99], ⟨.file [chunkT.id], Demo.fileMd chunkT.data.length 5⟩)]

def snapT : Snapshot ObjectId := filteredSnap argsF (snapF chunkT) (Demo.treeBlob rootT).id

theorem postsT : (planF chunkT).posts = [snapT].map Post.putSnap := by decide +kernel

theorem treesT : ∀ bs ∈ Check.involved (Demo.clean (repoF chunkT)) (mainOf [] (sends (planF chunkT).main)), ∀ b ∈ bs,
    b.kind = .tree → (b.id = snapT.tree → b.data = Demo.codec.encTree rootT) ∧ b.id ≠ chunkT.id := by
  decide +kernel

theorem blobsT_hash : ∀ b ∈ blobsF chunkT, ∀ b' ∈ blobsF chunkT,
    Demo.codec.hash b.data = Demo.codec.hash b'.data → b.data = b'.data := by decide +kernel

theorem decT : Demo.codec.decTree (Demo.codec.encTree rootT) = some (rootT, []) := by decide +kernel

theorem snapT_ne : snapT.tree ≠ Demo.codec.emptyId := by decide +kernel

theorem chunkT_ne : chunkT.id ≠ Demo.codec.emptyId := by decide +kernel

/-- A snapshot whose root lists a directory that is not there cannot be read. -/
theorem no_sub {s : Snapshot Id} {t : Tree Id} {n : Name} {md : Meta} {c : Id}
    (h0 : C.decTree (C.encTree t) = some (t, [])) (h1 : s.tree ≠ C.emptyId)
    (h2 : ∀ b, Has C R b → b.kind = .tree → b.id = s.tree → b.data = C.encTree t)
    (h3 : (n, ⟨.dir c, md⟩) ∈ t) (h4 : c ≠ C.emptyId)
    (h5 : ∀ b, Has C R b → b.kind = .tree → b.id ≠ c) : ¬ Readable C R s := by
  rintro ⟨d, t', ⟨hok, h6, h7⟩, hd⟩
  have ht : t' = t := by
    rcases h7 with rfl | h7
    · exact absurd h6.symm h1
    · have := h2 _ h7 rfl rfl
      have h8 := C.dec_enc t' hok
      simp only at this
      rw [this, h0] at h8
      cases h8
      rfl
  subst ht
  have key : ∀ {t : Tree Id} {d : Dir Bytes}, DirHolds C R t d → (n, ⟨.dir c, md⟩) ∈ t → ∃ u, TreeAt C R c u := by
    intro t d hd
    induction hd with
    | nil => intro h; cases h
    | file _ _ ih =>
      intro h
      rcases List.mem_cons.mp h with h | h
      · cases h
      · exact ih h
    | link _ ih =>
      intro h
      rcases List.mem_cons.mp h with h | h
      · cases h
      · exact ih h
    | dir hu _ _ _ ih =>
      intro h
      rcases List.mem_cons.mp h with h | h
      · cases h; exact ⟨_, hu⟩
      · exact ih h
  obtain ⟨u, _, hu1, hu2⟩ := key hd h3
  rcases hu2 with rfl | hu2
  · exact h4 hu1.symm
  · exact h5 _ hu2 rfl rfl

/-- Filtering a snapshot of a repository in good order can make one that cannot be read, though no
two strings that take part hash alike: of what `filtered_partial` asks only the `kind` of `Unmixed`
fails. -/
theorem chunk_like_tree :
    FilterOk Demo.codec ids1 (Demo.clean (repoF chunkT)) (Check.opened (repoF chunkT)) (targetF chunkT) ∧
    filterPlan Demo.codec (Check.opened (repoF chunkT)) (targetF chunkT) noX argsF = .ok (planF chunkT) ∧
    (∀ b b', (Has Demo.codec (repoF chunkT) b ∨
        b ∈ filterTrees Demo.codec (Check.opened (repoF chunkT)) (targetF chunkT) noX) →
      (Has Demo.codec (repoF chunkT) b' ∨
        b' ∈ filterTrees Demo.codec (Check.opened (repoF chunkT)) (targetF chunkT) noX) →
      Demo.codec.hash b.data = Demo.codec.hash b'.data → b.data = b'.data) ∧
    PacksDiffer ids1 (Demo.clean (repoF chunkT)) (planF chunkT).main ∧
    (∃ w', Finished (liveCfg ids1 4 (planF chunkT).start) (Demo.clean (repoF chunkT)) (planF chunkT).main
      (planF chunkT).posts w') ∧
    ∀ w', Finished (liveCfg ids1 4 (planF chunkT).start) (Demo.clean (repoF chunkT)) (planF chunkT).main
        (planF chunkT).posts w' →
      (ids1.snapId snapT, snapT) ∈ w'.repo.snapshots ∧ ¬ Readable Demo.codec w'.repo snapT := by
  have hH : Healthy Demo.codec ids1 (Demo.clean (repoF chunkT)).repo := healthyT
  refine ⟨filterOk_of healthyT targetT, planT_eq, ?_, Check.packsDiffer_sound (by decide +kernel), ?_, ?_⟩
  · have hm : ∀ b, (Has Demo.codec (repoF chunkT) b ∨
        b ∈ filterTrees Demo.codec (Check.opened (repoF chunkT)) (targetF chunkT) noX) → b ∈ blobsF chunkT := by
      rintro b (h | h)
      · exact List.mem_append_left _ (Check.has_iff.mp h).2
      · exact List.mem_append_right _ h
    exact fun b b' h h' => blobsT_hash b (hm b h) b' (hm b' h')
  · obtain ⟨t, ht, hj⟩ := Check.run_finishes (cores := 4) hH runT (Nat.le_refl 4)
    exact ⟨_, .mk t (by rw [mainT]; exact ht) hj⟩
  · intro w' h
    cases h with
    | mk s hs hj =>
      rw [mainT] at hs
      have hpk := Check.run_packs hH runT hs
      have hsn : s.world.repo.snapshots = (Demo.clean (repoF chunkT)).repo.snapshots := by
        obtain ⟨h1, _⟩ := Check.run_sound (cores := 4) hH runT
        exact (effect h1 (Check.run_reachable hs)).snaps
      simp only [liveCfg_ids]
      rw [postsT]
      have hsrt : BMap.Sorted s.world.repo.snapshots := by rw [hsn]; exact healthyT.snapshots_sorted
      refine ⟨(puts_snaps [snapT] hsrt (by simp)).1 _ List.mem_cons_self, ?_⟩
      have hin : ∀ b, Has Demo.codec (([snapT].map Post.putSnap).foldl (applyPost ids1) s.world.repo) b →
          ∃ bs ∈ Check.involved (Demo.clean (repoF chunkT)) (mainOf [] (sends (planF chunkT).main)), b ∈ bs := by
        rintro b ⟨_, p, bs, _, h2, h3⟩
        exact ⟨bs, (hpk p bs h2).2, h3⟩
      exact no_sub (C := Demo.codec) (s := snapT) (t := rootT) (c := chunkT.id) decT snapT_ne
        (fun b hb hk => by obtain ⟨bs, h1, h2⟩ := hin b hb; exact (treesT bs h1 b h2 hk).1) List.mem_cons_self
        chunkT_ne (fun b hb hk => by obtain ⟨bs, h1, h2⟩ := hin b hb; exact (treesT bs h1 b h2 hk).2)

end Backpak.C31
