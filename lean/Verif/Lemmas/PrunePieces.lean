import Verif.Lemmas.Prune
import Verif.Spec.AddedTo

/-!
# A prune that reads the repository piece by piece
-/

namespace Backpak

open Spec Pipeline

variable {Id : Type} [LinearOrder Id] {C : Codec Id} {env : CacheEnv Id} {ids : Ids Id} {cores : Nat}
  {src : Source Id} {snaps : List (Snap Id)} {plan : Plan Id}

omit [LinearOrder Id] in
theorem AddedTo.has {R R' : Repo Id} (h : AddedTo R R') {b : Blob Id} (hb : Has C R b) : Has C R' b := by
  obtain ⟨h1, p, bs, h2, h3, h4⟩ := hb
  exact ⟨h1, p, bs, h.listed _ _ h2, h.packs _ h3, h4⟩

omit [LinearOrder Id] in
theorem AddedTo.treeAt {R R' : Repo Id} (h : AddedTo R R') {u : Id} {t : Tree Id} (ht : TreeAt C R u t) : TreeAt C R' u t :=
  ⟨ht.1, ht.2.1, ht.2.2.imp id h.has⟩

omit [LinearOrder Id] in
theorem AddedTo.refl (R : Repo Id) : AddedTo R R := ⟨fun _ h => h, fun _ _ h => h⟩

omit [LinearOrder Id] in
theorem AddedTo.trans {R R' R'' : Repo Id} (h : AddedTo R R') (h' : AddedTo R' R'') : AddedTo R R'' :=
  ⟨fun e he => h'.packs e (h.packs e he), fun q m hl => h'.listed q m (h.listed q m hl)⟩

/-! ## What a walk that succeeds has found -/

section Found

variable {R : Repo Id} {P : Id → Prop}

theorem lookup_found (hS : Sound C R) (ho : Opens R src) {c p : Id} (h : src.blobMap.get? c = some p) :
    ∃ b, Has C R b ∧ b.id = c := by
  obtain ⟨m, e, hl, he, hid⟩ := (opens_lookup hS ho _ _).mp h
  obtain ⟨bs, hb, rfl⟩ := hS.present _ _ hl
  obtain ⟨b, hb', rfl⟩ := List.mem_map.mp he
  exact ⟨b, (hS.has_iff b).mpr ⟨_, bs, hl, hb, hb'⟩, hid⟩

theorem repackChunks_found (he : C33.EnvOk env) (hS : Sound C R) (ho : Opens R src)
    (hP : ∀ c, P c → (∃ b, Has C R b ∧ b.id = c) → ∃ x, Has C R ⟨x, c, .chunk⟩) (cs : List Id) (hcs : ∀ c ∈ cs, P c) :
    ∀ {s r st}, C33.Settled C R env r → repackChunks C src env cs (s, r) = .ok st →
      (∀ c ∈ cs, ∃ x, Has C R ⟨x, c, .chunk⟩) ∧ C33.Settled C R env st.2 := by
  induction cs with
  | nil => intro s r st hr h; cases h; exact ⟨by simp, hr⟩
  | cons c cs ih =>
    intro s r st hr h
    have ih := @ih (fun c hc => hcs c (List.mem_cons_of_mem _ hc))
    have hc := hP c (hcs c List.mem_cons_self)
    simp only [repackChunks] at h
    split at h
    · split at h
      · cases h
      · rename_i hz
        have hf : ∃ x, Has C R ⟨x, c, .chunk⟩ := by
          unfold blobSize at hz
          split at hz
          · cases hz
          · rename_i p hp
            exact hc (lookup_found hS ho hp)
        obtain ⟨h1, h2⟩ := ih hr h
        exact ⟨fun d hd => (List.mem_cons.mp hd).elim (fun h => h ▸ hf) (h1 d), h2⟩
    · split at h
      · cases h
      · rename_i x r' hz
        have hf : ∃ x, Has C R ⟨x, c, .chunk⟩ := by
          unfold readBlob at hz
          split at hz
          · rename_i q hq
            unfold cacheGet at hq
            split at hq
            · cases hq
            · rename_i e he
              obtain ⟨h1, h2⟩ := C33.find_some he
              exact ⟨_, h2 ▸ hr.stored e h1⟩
          · split at hz
            · cases hz
            · rename_i p hp
              exact hc (lookup_found hS ho hp)
        obtain ⟨y, hy⟩ := hf
        obtain ⟨r2, h1, h2⟩ := C33.read_ok he hS ho r hr c y hy
        rw [h1] at hz
        cases hz
        obtain ⟨h3, h4⟩ := ih h2 h
        exact ⟨fun d hd => (List.mem_cons.mp hd).elim (fun h => h ▸ ⟨_, hy⟩) (h3 d), h4⟩

/-- Every chunk below a tree. -/
def ChunksBelow (F : Forest Id) (id : Id) (P : Id → Prop) : Prop :=
  ∀ u t, Reaches (InForest F) id u → F.get? u = some t → ∀ c ∈ chunksInTree t, P c

theorem repackTree_found (he : C33.EnvOk env) (hS : Sound C R) (ho : Opens R src)
    (hP : ∀ c, P c → (∃ b, Has C R b ∧ b.id = c) → ∃ x, Has C R ⟨x, c, .chunk⟩) (F : Forest Id) (k : Nat) :
    ∀ {path id s r out}, C33.Settled C R env r → ChunksBelow F id P →
      repackTree C src env (fun _ => true) F k path id (s, r) = .ok out →
      ChunksBelow F id (fun c => ∃ x, Has C R ⟨x, c, .chunk⟩) ∧ C33.Settled C R env out.2.2 := by
  induction k with
  | zero => intro path id s r out _ _ h; cases h
  | succ k ih =>
    intro path id s r out hr hb h
    simp only [repackTree] at h
    split at h
    · cases h
    · rename_i t ht
      split at h
      · cases h
      · rename_i t' s' r' hn
        cases h
        have loop : ∀ (l : Tree Id) (hl : ∀ e ∈ l, e ∈ t) (acc : Tree Id) (s : Sends Id) (r : ReaderState Id)
            (o : Tree Id × Repacking Id), C33.Settled C R env r →
            repackNodes C src env (fun _ => true) (repackTree C src env (fun _ => true) F k) path l acc (s, r) = .ok o →
            (∀ e ∈ l, (∀ c ∈ chunksInNode e.2, ∃ x, Has C R ⟨x, c, .chunk⟩) ∧
              ∀ sub, e.2.contents = .dir sub → ChunksBelow F sub (fun c => ∃ x, Has C R ⟨x, c, .chunk⟩)) ∧
            C33.Settled C R env o.2.2 := by
          intro l
          induction l with
          | nil => intro _ acc s r o hr h; cases h; exact ⟨by simp, hr⟩
          | cons e l ihl =>
            intro hl acc s r o hr h
            obtain ⟨n, x⟩ := e
            simp only [repackNodes, Bool.true_eq_false, if_false] at h
            have het := hl _ List.mem_cons_self
            split at h
            · cases h
            · rename_i y st' hy
              split at h
              · cases h
              · have hnode : ((∀ c ∈ chunksInNode x, ∃ x, Has C R ⟨x, c, .chunk⟩) ∧
                    ∀ sub, x.contents = .dir sub → ChunksBelow F sub (fun c => ∃ x, Has C R ⟨x, c, .chunk⟩)) ∧
                    C33.Settled C R env st'.2 := by
                  obtain ⟨xc, md⟩ := x
                  unfold repackNode at hy
                  cases xc with
                  | file cs =>
                    simp only at hy
                    cases hz : repackChunks C src env cs (s, r) with
                    | error e => rw [hz] at hy; cases hy
                    | ok st2 =>
                      rw [hz] at hy
                      cases hy
                      have hcs : ∀ c ∈ cs, P c := fun c hc =>
                        hb id t .refl ht c (List.mem_flatMap.mpr ⟨_, het, hc⟩)
                      obtain ⟨h1, h2⟩ := repackChunks_found he hS ho hP cs hcs hr hz
                      exact ⟨⟨h1, fun sub hs => by cases hs⟩, h2⟩
                  | link tg =>
                    cases hy
                    exact ⟨⟨by simp [chunksInNode], fun sub hs => by cases hs⟩, hr⟩
                  | dir sub =>
                    simp only at hy
                    cases hz : repackTree C src env (fun _ => true) F k (path ++ [n]) sub (s, r) with
                    | error e => rw [hz] at hy; cases hy
                    | ok st2 =>
                      rw [hz] at hy
                      cases hy
                      obtain ⟨h1, h2⟩ := ih hr (fun u t2 hu ht2 => hb u t2 (.step ht het hu) ht2) hz
                      exact ⟨⟨by simp [chunksInNode], fun sub' hs => by cases hs; exact h1⟩, h2⟩
                obtain ⟨s2, r2⟩ := st'
                obtain ⟨h1, h2⟩ := ihl (fun e he => hl e (List.mem_cons_of_mem _ he)) _ s2 r2 o hnode.2 h
                refine ⟨fun e he => ?_, h2⟩
                rcases List.mem_cons.mp he with rfl | he
                · exact hnode.1
                · exact h1 e he
        obtain ⟨h1, h2⟩ := loop t (fun _ h => h) [] s r _ hr hn
        refine ⟨?_, h2⟩
        intro u tu hu htu c hc
        cases hu with
        | refl =>
          rw [ht] at htu
          cases htu
          obtain ⟨e, he, hc⟩ := List.mem_flatMap.mp hc
          exact (h1 e he).1 c hc
        | @step _ t2 n sub md _ g1 g2 g3 =>
          have := g1.symm.trans ht
          cases this
          exact (h1 _ g2).2 sub rfl u tu g3 htu c hc

theorem walkSnapshots_found (he : C33.EnvOk env) (hS : Sound C R) (ho : Opens R src)
    (hP : ∀ c, P c → (∃ b, Has C R b ∧ b.id = c) → ∃ x, Has C R ⟨x, c, .chunk⟩) (sfs : List (Snap Id × Forest Id))
    (hb : ∀ e ∈ sfs, ChunksBelow e.2 e.1.1.tree P) :
    ∀ {s r out}, C33.Settled C R env r → walkSnapshots C src env (fun _ => true) sfs (s, r) = .ok out →
      ∀ e ∈ sfs, ChunksBelow e.2 e.1.1.tree (fun c => ∃ x, Has C R ⟨x, c, .chunk⟩) := by
  induction sfs with
  | nil => simp
  | cons e rest ih =>
    intro s r out hr h
    obtain ⟨sn, F⟩ := e
    simp only [walkSnapshots] at h
    split at h
    · cases h
    · rename_i root st' h1
      split at h
      · cases h
      · rename_i l st'' h2
        obtain ⟨g1, g2⟩ := repackTree_found he hS ho hP F _ hr (hb _ List.mem_cons_self) h1
        obtain ⟨s2, r2⟩ := st'
        intro e he
        rcases List.mem_cons.mp he with rfl | he
        · exact g1
        · exact ih (fun e he => hb e (List.mem_cons_of_mem _ he)) g2 h2 e he

end Found

theorem loadForests_grounded {R : Repo Id} (hS : Sound C R) (ho : Opens R src) (snaps : List (Snap Id))
    {cache : Forest Id} (hc : CacheOk C R cache) {sfs : List (Snap Id × Forest Id)}
    (h : loadForests C src cache snaps = .ok sfs) : ∀ e ∈ sfs, Grounded (TreeAt C R) e.1.1.tree := by
  induction snaps generalizing cache sfs with
  | nil => cases h; simp
  | cons s rest ih =>
    simp only [loadForests] at h
    split at h
    · cases h
    · rename_i F cache' h1
      split at h
      · cases h
      · rename_i l hl
        cases h
        obtain ⟨_, hc', hg, _⟩ := C23.appendTree_sound hS ho _ [] s.1.tree ([], cache) (F, cache')
          BMap.sorted_nil hc h1
        intro e he
        rcases List.mem_cons.mp he with rfl | he
        · exact hg
        · exact ih hc' hl e he

/-! ## What was found before -/

section Before

variable {R R' : Repo Id}

theorem file_before (hS : Sound C R') (hg : AddedTo R R') {cs : List Id} {x : Bytes} (h : FileHolds C R' cs x)
    (hc : ∀ c ∈ cs, ∃ x, Has C R ⟨x, c, .chunk⟩) : FileHolds C R cs x := by
  induction h with
  | nil => exact .nil
  | @cons c x cs y h1 _ ih =>
    obtain ⟨z, hz⟩ := hc c List.mem_cons_self
    cases hS.has_one h1 (hg.has hz) rfl
    exact .cons hz (ih (fun c h => hc c (List.mem_cons_of_mem _ h)))

theorem holds_before (hS : Sound C R') (hg : AddedTo R R') {root : Id} (h : Grounded (TreeAt C R) root)
    (hc : ∀ u t, Reaches (TreeAt C R) root u → TreeAt C R u t → ∀ c ∈ chunksInTree t, ∃ x, Has C R ⟨x, c, .chunk⟩)
    {d : Dir Bytes} (hd : Holds C R' root d) : Holds C R root d := by
  induction h generalizing d with
  | @mk root t ht hsub ih =>
    obtain ⟨t', ht', hd⟩ := hd
    cases hS.treeAt_one (hg.treeAt ht) ht'
    refine ⟨t, ht, ?_⟩
    have h1 : ∀ c ∈ chunksInTree t, ∃ x, Has C R ⟨x, c, .chunk⟩ := hc root t .refl ht
    have h2 : ∀ n sub md, (n, (⟨.dir sub, md⟩ : Node Id)) ∈ t → ∀ d, Holds C R' sub d → Holds C R sub d :=
      fun n sub md hm d hd => ih sub ⟨n, md, hm⟩ (fun u tu hu => hc u tu (.step ht hm hu)) hd
    clear ih hsub hc ht ht'
    unfold chunksInTree at h1
    induction hd with
    | nil => exact .nil
    | @file n cs md t x d hf _ ih =>
      exact .file (file_before hS hg hf (fun c hc => h1 c (List.mem_append_left _ hc)))
        (ih (fun c hc => h1 c (by rw [List.flatMap_cons]; exact List.mem_append_right _ hc))
          (fun n sub md hm => h2 n sub md (List.mem_cons_of_mem _ hm)))
    | @link n tgt md t d _ ih =>
      exact .link (ih (fun c hc => h1 c (by rw [List.flatMap_cons]; exact List.mem_append_right _ hc))
        (fun n sub md hm => h2 n sub md (List.mem_cons_of_mem _ hm)))
    | @dir n id md t t' sub d hp hs _ _ ih =>
      obtain ⟨t2, a, b⟩ := h2 n id md List.mem_cons_self sub ⟨t', hp, hs⟩
      exact .dir a b (ih (fun c hc => h1 c (by rw [List.flatMap_cons]; exact List.mem_append_right _ hc))
        (fun n sub md hm => h2 n sub md (List.mem_cons_of_mem _ hm)))

end Before

/-! ## The prune -/

/-- A prune that reads the indexes of `R₁`, then the snapshots of `R₂`, and then, when it has loaded their forests,
lists the indexes of `w` (`src/ui/prune.rs:42-108`). Meanwhile others only add packs and indexes. Its working directory has nothing to resume. -/
structure InPieces (C : Codec Id) (env : CacheEnv Id) (ids : Ids Id) (R₁ R₂ : Repo Id) (w : World Id) (src : Source Id)
    (snaps : List (Snap Id)) : Prop where
  clock : C33.EnvOk env
  first : Healthy C ids R₁
  second : Healthy C ids R₂
  third : Healthy C ids w.repo
  grown : AddedTo R₁ R₂
  grown' : AddedTo R₂ w.repo
  wip : w.cwd.wip = none
  names : ∀ p bs, (p, bs) ∈ w.cwd.packs → p = ids.packId (Pack.manifestOf bs)
  opens : Opens R₁ src
  loaded : ∀ i s, (i, s) ∈ R₂.snapshots ↔ (s, i) ∈ snaps
  noEmpty : ∀ x, ¬ Has C R₁ ⟨x, C.emptyId, .chunk⟩

section

variable {R₁ R₂ : Repo Id} {w : World Id}

/-- If it gets as far as to have a plan, it has found everything that the snapshots need. -/
theorem InPieces.held (h : InPieces C env ids R₁ R₂ w src snaps) {dry : Bool}
    (hp : prunePlan C env w src snaps dry = .ok (some plan)) {i : Id} {sn : Snapshot Id} (hsn : (i, sn) ∈ R₂.snapshots)
    {d : Dir Bytes} (hd : Holds C R₂ sn.tree d) : Holds C R₁ sn.tree d := by
  obtain ⟨sfs, known, here, new, r, h1, _, _, _, s, h5, _, _⟩ := prunePlan_ok hp
  have hS := h.first.sound
  obtain ⟨h2, h3⟩ := loadForests_sound hS h.opens snaps newTreeCache_ok h1
  have hin : ∀ e ∈ sfs, (e.1.2, e.1.1) ∈ R₂.snapshots := by
    intro e he
    refine (h.loaded _ _).mpr ?_
    rw [← h2]
    exact List.mem_map.mpr ⟨e, he, rfl⟩
  have hF : ∀ e ∈ sfs, ∀ u, Reaches (InForest e.2) e.1.1.tree u → Reaches (TreeAt C R₁) e.1.1.tree u := by
    intro e he u hu
    have hf := (h3 e he).1
    have : ∀ a, Reaches (TreeAt C R₁) e.1.1.tree a → Reaches (InForest e.2) a u → Reaches (TreeAt C R₁) a u := by
      intro a ha hau
      induction hau with
      | refl => exact .refl
      | @step a t n sub md u g1 g2 _ ih =>
        have g := (hf a t).mp g1
        exact .step g.2 g2 (ih hu (ha.trans (.step g.2 g2 .refl)))
    exact this _ .refl hu
  have hgr : ∀ root u, Reaches (TreeAt C R₁) root u → Reaches (TreeAt C R₂) root u := by
    intro root u hu
    induction hu with
    | refl => exact .refl
    | step g1 g2 _ ih => exact .step (h.grown.treeAt g1) g2 ih
  have key := walkSnapshots_found (P := fun c => ∃ x, Has C R₂ ⟨x, c, .chunk⟩) h.clock hS h.opens (by
    rintro c ⟨x, hx⟩ ⟨b, hb, rfl⟩
    have e := h.second.sound.has_one hx (h.grown.has hb) rfl
    exact ⟨x, by rw [e]; exact hb⟩) sfs (by
    intro e he u t hu ht c hc
    have g := ((h3 e he).1 u t).mp ht
    obtain ⟨d, hd⟩ := h.second.readable _ _ (hin e he)
    obtain ⟨_, d', t', ht', hd'⟩ := reaches_kept h.second.sound (fun b hb => .inl hb) (hgr _ _ g.1) hd
    cases h.second.sound.treeAt_one (h.grown.treeAt g.2) ht'
    exact holds_chunk hd' hc) C33.settled_new h5
  have hsn' := (h.loaded _ _).mp hsn
  rw [← h2] at hsn'
  obtain ⟨e, he, heq⟩ := List.mem_map.mp hsn'
  have htree : e.1.1.tree = sn.tree := by rw [heq]
  have hf := (h3 e he).1
  have hg := loadForests_grounded hS h.opens snaps newTreeCache_ok h1 e he
  have hk := key e he
  rw [htree] at hg hk hf
  refine holds_before h.second.sound h.grown hg (fun u t hu ht => hk u t ?_ ((hf u t).mpr ⟨hu, ht⟩)) hd
  have : ∀ a, Reaches (TreeAt C R₁) sn.tree a → Reaches (TreeAt C R₁) a u → Reaches (InForest e.2) a u := by
    intro a ha hau
    induction hau with
    | refl => exact .refl
    | @step a t n sub md u g1 g2 _ ih =>
      exact .step ((hf a t).mpr ⟨ha, g1⟩) g2 (ih hu ht (ha.trans (.step g1 g2 .refl)))
  exact this _ .refl hu

/-- The repository as the prune sees it. -/
def seen (R₁ R₂ : Repo Id) : Repo Id := { R₁ with snapshots := R₂.snapshots }

theorem InPieces.pruneOk (h : InPieces C env ids R₁ R₂ w src snaps) {dry : Bool}
    (hp : prunePlan C env w src snaps dry = .ok (some plan)) : PruneOk C env ids ⟨seen R₁ R₂, w.cwd⟩ src snaps where
  clock := h.clock
  healthy := ⟨h.first.packs_sorted, h.first.indexes_sorted, h.second.snapshots_sorted, h.first.pack_names,
    h.first.index_names, h.first.index_packs, h.first.present, h.first.distinct, h.first.once, h.first.one_kind,
    h.first.hashes, h.first.trees, h.first.full, fun i sn hsn => by
      obtain ⟨d, hd⟩ := h.second.readable i sn hsn
      exact ⟨d, has_mono_holds (R := R₁) (R' := seen R₁ R₂) (fun _ h => h) (h.held hp hsn hd)⟩⟩
  leftover := by
    refine ⟨h.names, ?_, ?_, ?_, ?_⟩ <;> intro x <;> simp [h.wip]
  opens := ⟨h.opens.master, h.opens.blobMap, h.opens.read, h.opens.absent⟩
  loaded := h.loaded
  noEmpty := h.noEmpty

/-- What the prune has to work with. -/
structure Piecemeal (C : Codec Id) (ids : Ids Id) (cores : Nat) (R : Repo Id) (w : World Id) (src : Source Id)
    (plan : Plan Id) (c : Cfg Id) (reach : List Id) : Prop where
  cfg : c = ⟨ids, true, cores, plan.start, Involved w plan.main⟩
  start : plan.start = freshIndex w src reach
  exact : ∀ i, i ∈ reach ↔ Needed C R i
  some : BMap.keys w.repo.indexes ≠ []
  posts : plan.posts = prunePosts w src reach
  run : RunOk c w plan.main
  ledger : Ledger C (StartPack c)
  fresh : Fresh C (StartPack c) (sends plan.main)
  new : IndexNew c w.repo (sends plan.main)
  needed : ∀ b ∈ sends plan.main, Needed C R b.id ∧ (b = emptyBlob C ∨ Has C R b)
  kept : ∀ p bs b, StartPack c p bs → b ∈ bs → Needed C R b.id ∧ (b = emptyBlob C ∨ Has C R b)
  holds : ∀ R', (∀ b, (b ∈ sends plan.main ∨ ∃ p bs, StartPack c p bs ∧ b ∈ bs) → Has C R' b) →
      ∀ i sn d, (i, sn) ∈ R.snapshots → Holds C R sn.tree d → Holds C R' sn.tree d

theorem InPieces.piecemeal (h : InPieces C env ids R₁ R₂ w src snaps) (hN : PruneNoClash ids cores w plan)
    (hp : prunePlan C env w src snaps false = .ok (some plan)) :
    ∃ c reach, Piecemeal C ids cores (seen R₁ R₂) w src plan c reach := by
  have hP := h.pruneOk hp
  obtain ⟨sfs, known, here, new, r, h1, h2, h3, h4, s, h5, h6, h7⟩ := prunePlan_ok hp
  have hS := hP.healthy.sound
  have hfr : findResumable w = .ok none := by unfold findResumable; rw [h.wip]
  have hst : plan.start = freshIndex w src (reachableBlobs sfs) ∧ here = [] := by
    unfold pruneStart at h4
    rw [hfr] at h4
    simp only [Except.map, Except.ok.injEq, Prod.mk.injEq] at h4
    exact ⟨h4.1.symm, h4.2.symm⟩
  obtain ⟨hst, rfl⟩ := hst
  have hmain : plan.main = mainOf [] s.sent := by rw [h6]; rfl
  have hsends : sends plan.main = s.sent := by rw [hmain, sends_mainOf]
  generalize hreach : reachableBlobs sfs = reach at *
  generalize hc : (⟨ids, true, cores, plan.start, Involved w plan.main⟩ : Cfg Id) = c
  generalize hc1 : (⟨ids, true, cores, freshIndex ⟨seen R₁ R₂, w.cwd⟩ src reach, Involved w plan.main⟩ : Cfg Id) = c1
  have hG : ∀ p bs, Good c1 p bs ↔ Good c p bs := by subst hc hc1; exact fun _ _ => Iff.rfl
  have hSP : ∀ p bs, StartPack c1 p bs ↔ StartPack c p bs := by
    subst hc hc1
    intro p bs
    unfold StartPack
    rw [hG]
    simp only [hst]
    exact Iff.rfl
  have hgrown := h.grown.trans h.grown'
  have hgoodW : ∀ p bs, (p, bs) ∈ w.repo.packs → Good c p bs := by
    intro p bs hb
    rw [← hc]
    exact ⟨h.third.pack_names p bs hb, .inl ⟨p, hb⟩⟩
  have hgoodC : ∀ p bs, (p, bs) ∈ w.cwd.packs → Good c p bs := by
    intro p bs hb
    rw [← hc]
    exact ⟨h.names p bs hb, .inr (.inl ⟨p, hb⟩)⟩
  have hinj : PackInj c := by
    rw [← hc]; exact hN.packs
  have hinj1 : PackInj c1 := by
    rw [← hc1]; exact hN.packs
  have hex : ∀ i, i ∈ reach ↔ Needed C (seen R₁ R₂) i := by
    rw [← hreach]; exact reachable_iff hP h1
  have hst1 := starts (c := c1) (here := []) hP (fun i hi => (hex i).mp hi) h2 hinj1
    (fun p bs hb => (hG p bs).mpr (hgoodW p bs (hgrown.packs _ hb)))
    (fun p bs hb => (hG p bs).mpr (hgoodC p bs hb)) (by
      have hfr' : findResumable (⟨seen R₁ R₂, w.cwd⟩ : World Id) = .ok none := by unfold findResumable; rw [h.wip]
      unfold pruneStart
      rw [hfr', ← hc1]
      rfl)
  have hpk1 : c1.start.packs = c.start.packs := by rw [← hc1, ← hc, hst]; rfl
  have hfresh := prune_blobs hP h1 (packed := BMap.keys known ++ listedIds plan.start) (L := StartPack c1)
    (fun p bs b h hb => (hst1.kept p bs b h hb).2) (by
    intro i
    have hk : i ∈ BMap.keys known ++ listedIds plan.start ↔ i ∈ listedIds c1.start := by
      rw [List.mem_append, blobIds_iff h3, ← hst, or_self]
      unfold listedIds
      rw [hpk1, ← hc]
    rw [hk]
    unfold listedIds
    rw [List.mem_flatMap]
    constructor
    · rintro ⟨⟨p, m⟩, hm, hi⟩
      obtain ⟨bs, hg, rfl⟩ := hst1.good p m hm
      rw [entry_ids] at hi
      obtain ⟨b, hb', rfl⟩ := List.mem_map.mp hi
      exact ⟨p, bs, b, ⟨hm, hg⟩, hb', rfl⟩
    · rintro ⟨p, bs, b, ⟨hm, _⟩, hb, rfl⟩
      refine ⟨_, hm, ?_⟩
      rw [entry_ids]
      exact List.mem_map.mpr ⟨b, hb, rfl⟩) h5
  obtain ⟨f1, f2, f3⟩ := hfresh
  have hSPeq : StartPack c1 = StartPack c := by
    funext p bs
    exact propext (hSP p bs)
  rw [hSPeq] at f1 f3
  have hled := hst1.ledger
  have hkept := hst1.kept
  rw [hSPeq] at hled hkept
  refine ⟨c, reach, hc.symm, hst, hex, ?_, ?_, ?_, hled, ?_, ?_, ?_, hkept, ?_⟩
  · have := some_index hP.healthy hP.opens h2
    obtain ⟨i, hi⟩ := List.exists_mem_of_ne_nil _ h2
    obtain ⟨j, x, ⟨a, _⟩, _⟩ := hgrown.listed _ _ ((opens_mem hS hP.opens i.1 i.2).mp (List.mem_filter.mp hi).1)
    exact List.ne_nil_of_mem (BMap.mem_keys_of_mem a)
  · unfold Plan.posts; rw [h7]; rfl
  · refine ⟨by rw [← hc], hinj, ⟨hgoodC, hgoodW, h.third.packs_sorted, h.third.indexes_sorted⟩, ?_,
      hpk1 ▸ hst1.sorted, ?_, ?_⟩
    · intro p hp
      rw [← hpk1] at hp
      rcases hst1.there p hp with h8 | h8
      · cases h8
      · obtain ⟨bs, hb⟩ := BMap.mem_keys_iff.mp h8
        exact .inl (BMap.mem_keys_of_mem (hgrown.packs _ (BMap.mem_of_get? hb)))
    · intro p m hm
      rw [← hpk1] at hm
      obtain ⟨bs, hg, hb⟩ := hst1.good p m hm
      exact ⟨bs, (hG p bs).mp hg, hb⟩
    · rw [hsends]; exact f1.ne
  · rw [hsends]; exact f1
  · have := hN.indexes
    rintro x ⟨x1, x2, news, rest, x3, x4, x5, x6⟩
    have := this x ⟨by rw [x1, ← hc]; rfl, x2, news, rest, x3,
      fun e he => ⟨by have := (x4 e he).1; rw [← hc] at this; exact this, trivial⟩, x5,
      by rw [← hc] at x6; exact x6⟩
    rw [← hc]
    exact this
  · rw [hsends]; exact f2
  · rw [hsends]; exact fun R' hR => (f3 R' hR).1

variable {c : Cfg Id} {reach : List Id}

theorem Piecemeal.reachable {R : Repo Id} (h : Piecemeal C ids cores R w src plan c reach)
    {s : State Id} (hs : Reachable (liveCfg ids cores plan.start) w plan.main s) :
    Reachable c w plan.main s := by
  rw [h.cfg]
  exact reachable_allowed (c := liveCfg ids cores plan.start)
    (c' := ⟨ids, true, cores, plan.start, Involved w plan.main⟩)
    rfl rfl rfl rfl (fun cur hc => .inr (.inr hc)) hs

theorem Piecemeal.sup {R : Repo Id} (h : Piecemeal C ids cores R w src plan c reach) :
    c.start.supersedes = BMap.keys w.repo.indexes := by
  rw [h.cfg]; show plan.start.supersedes = _; rw [h.start]; rfl

/-- The new index lists none of the packs that are removed. -/
theorem Piecemeal.disjoint (h : InPieces C env ids R₁ R₂ w src snaps)
    (h' : Piecemeal C ids cores (seen R₁ R₂) w src plan c reach)
    {R' : Repo Id} {x : Index Id} {news : List (Id × Pack Id)}
    (hn : NewIndex c w.repo R' (sends plan.main) x news) :
    ∀ p ∈ BMap.keys (prunedPacks src reach), p ∉ BMap.keys x.packs := by
  intro p hp hx
  have hS := h.first.sound
  obtain ⟨⟨q, m⟩, hm, rfl⟩ := List.mem_map.mp hp
  obtain ⟨hm1, hm2⟩ := List.mem_filter.mp hm
  have hl := (opens_mem hS h.opens q m).mp hm1
  obtain ⟨bs, hb, rfl⟩ := hS.present q m hl
  have hb := (h.grown.trans h.grown').packs _ hb
  obtain ⟨⟨q', m'⟩, hx', heq⟩ := List.mem_map.mp hx
  simp only at heq
  subst heq
  simp only [Bool.not_eq_true', reusable, List.all_eq_false] at hm2
  obtain ⟨e, he, hne⟩ := hm2
  simp only [List.contains_iff_mem] at hne
  rcases List.mem_append.mp (hn.packs.subset hx') with hy | hx
  · obtain ⟨cs, hg, rfl⟩ := h'.run.startGood _ _ hy
    have := Good_unique h'.run.inj hg (h'.run.world.repo _ _ hb)
    subst this
    obtain ⟨b, hb', rfl⟩ := List.mem_map.mp he
    exact hne ((h'.exact _).mpr (h'.kept _ _ b ⟨hy, hg⟩ hb').1)
  · obtain ⟨⟨q, cs⟩, hc, heq⟩ := List.mem_map.mp hx
    simp only [Prod.mk.injEq] at heq
    obtain ⟨rfl, rfl⟩ := heq
    have hg := hn.good _ hc
    have hg' : Good c q bs := h'.run.world.repo _ _ hb
    have := Good_unique h'.run.inj hg hg'
    simp only at this
    subst this
    obtain ⟨b, hb', rfl⟩ := List.mem_map.mp he
    refine hne ((h'.exact _).mpr (h'.needed b ?_).1)
    exact hn.blobs.subset (List.mem_flatMap.mpr ⟨_, hc, hb'⟩)

/-- The repository at an instant of the prune: until the new index is there what could be found still can be, and then what
the snapshots read need. -/
structure Now (C : Codec Id) (ids : Ids Id) (R : Repo Id) (w : World Id) (plan : Plan Id) (c : Cfg Id) (R' : Repo Id) :
    Prop where
  sound : Sound C R'
  snaps : R'.snapshots = w.repo.snapshots
  has : (∀ b, Has C w.repo b → Has C R' b) ∨
    ∀ b, Has C R' b ↔ (b ∈ sends plan.main ∨ ∃ p bs, StartPack c p bs ∧ b ∈ bs)
  packs : ∀ p bs, (p, bs) ∈ R'.packs → p = ids.packId (Pack.manifestOf bs)
  indexes : ∀ i x, (i, x) ∈ R'.indexes → i = ids.indexId x ∧ BMap.Sorted x.packs

theorem Piecemeal.now (h : InPieces C env ids R₁ R₂ w src snaps)
    (h' : Piecemeal C ids cores (seen R₁ R₂) w src plan c reach) {s : State Id} (hs : Reachable c w plan.main s) :
    Now C ids (seen R₁ R₂) w plan c s.world.repo ∧ (s.joined = true → ∃ x news,
      NewIndex c w.repo s.world.repo (sends plan.main) x news ∧ Sole s.world.repo (ids.indexId x) x ∧
      ∀ b, Has C s.world.repo b ↔ (b ∈ sends plan.main ∨ ∃ p bs, StartPack c p bs ∧ b ∈ bs)) := by
  have hids : c.ids = ids := by rw [h'.cfg]
  have he := effect h'.run hs
  have hrep := replace h'.run h.third.sound h'.sup h'.ledger h'.fresh h'.new hs
  have hidx : ∀ i x, (i, x) ∈ s.world.repo.indexes → i = ids.indexId x ∧ BMap.Sorted x.packs := by
    intro i x h1
    rcases he.idx with h2 | ⟨y, ns, h2⟩
    · rw [h2] at h1; exact ⟨h.third.index_names i x h1, h.third.index_packs i x h1⟩
    · rw [h2.put] at h1
      rcases BMap.mem_insert_of h1 with ⟨rfl, rfl⟩ | h1
      · rw [hids]; exact ⟨rfl, h2.sorted⟩
      · exact ⟨h.third.index_names i x h1, h.third.index_packs i x h1⟩
  have hpk : ∀ p bs, (p, bs) ∈ s.world.repo.packs → p = ids.packId (Pack.manifestOf bs) :=
    fun p bs h1 => by rw [← hids]; exact (he.names p bs h1).1
  constructor
  · rcases hrep with ⟨_, h1, h2⟩ | ⟨_, _, _, h1, _, h2⟩
    · exact ⟨h1, he.snaps, .inl h2, hpk, hidx⟩
    · exact ⟨h1, he.snaps, .inr h2, hpk, hidx⟩
  · intro hj
    rcases hrep with ⟨h1, _⟩ | ⟨x, news, h1, _, h2, h3⟩
    · exfalso
      rcases effect_joined h'.run hs hj with ⟨h2, _, _⟩ | ⟨x, news, hn⟩
      · simp only [Index.isEmpty, Bool.and_eq_true, List.isEmpty_iff] at h2
        exact h'.some (h'.sup.symm.trans h2.1)
      · refine (h'.new x hn.writes).1 ?_
        rw [← h1, hn.put]
        exact BMap.keys_insert_mem.mpr (.inl rfl)
    · exact ⟨x, news, h1, by rw [← hids]; exact h2, h3⟩

theorem Piecemeal.later (h : InPieces C env ids R₁ R₂ w src snaps)
    (h' : Piecemeal C ids cores (seen R₁ R₂) w src plan c reach) {s : State Id} (hs : Reachable c w plan.main s)
    (hj : s.joined = true) {done rest : List (Post Id)} (hd : plan.posts = done ++ rest) :
    ∃ x news, NewIndex c w.repo s.world.repo (sends plan.main) x news ∧
      Trimmed C s.world.repo (done.foldl (applyPost ids) s.world.repo) (ids.indexId x) x ∧
      ∀ b, Has C s.world.repo b ↔ (b ∈ sends plan.main ∨ ∃ p bs, StartPack c p bs ∧ b ∈ bs) := by
  obtain ⟨h1, h4⟩ := h'.now h hs
  obtain ⟨x, news, hn, hx, hb⟩ := h4 hj
  have hdis := h'.disjoint h hn
  have hids : c.ids = ids := by rw [h'.cfg]
  refine ⟨x, news, hn, trim_all ids h1.sound hx done ?_, hb⟩
  intro o ho
  have ho : o ∈ plan.posts := by rw [hd]; exact List.mem_append_left _ ho
  rw [h'.posts, prunePosts, List.mem_append, List.mem_map, List.mem_map] at ho
  rcases ho with ⟨j, hj, rfl⟩ | ⟨p, hp, rfl⟩
  · refine .inl ⟨j, rfl, ?_⟩
    rintro rfl
    have := (h'.new x hn.writes).1
    rw [hids] at this
    exact this hj
  · exact .inr ⟨p, rfl, hdis p hp⟩

/-- At every instant. -/
theorem Piecemeal.instant (h : InPieces C env ids R₁ R₂ w src snaps)
    (h' : Piecemeal C ids cores (seen R₁ R₂) w src plan c reach) {w' : World Id}
    (hi : Instant (liveCfg ids cores plan.start) w plan.main plan.posts w') :
    Now C ids (seen R₁ R₂) w plan c w'.repo := by
  cases hi with
  | during s hs => exact (h'.now h (h'.reachable hs)).1
  | after s done rest hs hj hd =>
    have hn := (h'.now h (h'.reachable hs)).1
    obtain ⟨x, news, _, ht, hb⟩ := h'.later h (h'.reachable hs) hj hd
    exact ⟨ht.sound, ht.snaps.trans hn.snaps, .inr (fun b => (ht.has b).trans (hb b)),
      fun p bs h1 => hn.packs p bs (ht.packs _ h1), fun i x h1 => hn.indexes i x (ht.indexes _ h1)⟩

end

end Backpak
