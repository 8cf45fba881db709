import Verif.Lemmas.Changing
import Verif.Lemmas.Genuine
import Verif.Lemmas.Prune

/-!
# Packs with a chunk that is not what its ID says
-/

namespace Backpak

open Spec Pipeline

variable {Id : Type} [LinearOrder Id] {C : Codec Id} {cut : Bytes → Nat}

/-- Packs and indexes are files by name, and every pack a live index lists is there as listed. -/
structure Filed (R : Repo Id) : Prop where
  packs_sorted : BMap.Sorted R.packs
  indexes_sorted : BMap.Sorted R.indexes
  present : ∀ p m, Listed R.indexes p m → ∃ bs, (p, bs) ∈ R.packs ∧ Pack.manifestOf bs = m

theorem Sound.filed {R : Repo Id} (h : Sound C R) : Filed R := ⟨h.packs_sorted, h.indexes_sorted, h.present⟩

namespace Filed

variable {R : Repo Id} {src : Source Id}

theorem pack_one (h : Filed R) {p : Id} {bs bs' : Pack Id} (h1 : (p, bs) ∈ R.packs) (h2 : (p, bs') ∈ R.packs) :
    bs = bs' := by
  have a := (BMap.get?_eq_some_iff h.packs_sorted).mpr h1
  have b := (BMap.get?_eq_some_iff h.packs_sorted).mpr h2
  rw [a] at b
  exact Option.some.inj b

theorem opens_mem (h : Filed R) (ho : Opens R src) (p : Id) (m : Manifest Id) :
    (p, m) ∈ src.index.packs ↔ Listed R.indexes p m := by
  rw [← BMap.get?_eq_some_iff (opens_packs_sorted ho)]
  obtain ⟨files, hp, hb⟩ := ho.master
  rw [← listed_perm hp]
  refine C17.packs_exact files ?_ src.index hb ?_ p m
  · exact ((hp.map Prod.fst).nodup_iff).mpr h.indexes_sorted.nodup
  · intro p m m' h1 h2
    obtain ⟨bs, hb, rfl⟩ := h.present p m ((listed_perm hp p m).mp h1)
    obtain ⟨bs', hb', rfl⟩ := h.present p m' ((listed_perm hp p m').mp h2)
    rw [h.pack_one hb hb']

/-- What is looked up is in the pack that lists it. -/
theorem lookup (h : Filed R) (ho : Opens R src) {b p : Id} : src.blobMap.get? b = some p ↔
    ∃ m e, Listed R.indexes p m ∧ e ∈ m ∧ e.id = b := by
  rw [C18.lookup_iff _ _ ho.blobMap]
  simp only [opens_mem h ho]

end Filed

/-- A pack of chunks that loads has only chunks that are what their IDs say. -/
theorem loadLoop_hashes (h : Bytes → Id) (bs : List (Blob Id)) : ∀ (s : Stream) (r : List (Id × Bytes) × Nat),
    (∀ b ∈ bs, b.kind = .chunk) → Pack.contentOf bs <+: s.data →
    Pack.loadLoop h (Pack.manifestOf bs) s = .ok r → ∀ b ∈ bs, h b.data = b.id := by
  induction bs with
  | nil => intro _ _ _ _ _ b hb; cases hb
  | cons b bs ih =>
    intro s r hk hs hl
    rw [Pack.contentOf_cons] at hs
    obtain ⟨q, hr⟩ := hs
    have ht : s.take (Pack.entryOf b).length = .ok (b.data, ⟨Pack.contentOf bs ++ q, s.bad⟩) :=
      Stream.take_append (by rw [← hr, List.append_assoc])
    rw [Pack.manifestOf_cons, Pack.loadLoop] at hl
    have hkb : (Pack.entryOf b).kind = .chunk := hk b (by simp)
    rw [if_neg (by simp [hkb]), ht] at hl
    dsimp only at hl
    split at hl
    · rename_i he
      split at hl
      · cases hl
      · rename_i r' hr'
        intro c hc
        rcases List.mem_cons.mp hc with rfl | hc
        · exact he.symm
        · exact ih _ _ (fun c hc => hk c (List.mem_cons_of_mem _ hc)) (List.prefix_append _ _) hr' c hc
    · cases hl

/-- The reading of any chunks from a repository, all of which succeed, includes none of a pack with a
chunk that is not what its ID says. -/
theorem torn_unread {R : Repo Id} {src : Source Id} (hR : Filed R) (ho : Opens R src) {p : Id} {bs : Pack Id}
    (hp : LivePack R p bs) (hk : ∀ b ∈ bs, b.kind = .chunk) {b : Blob Id} (hb : b ∈ bs) (hne : C.hash b.data ≠ b.id)
    (env : CacheEnv Id) (l : List Id) : ∀ (s : ReaderState Id) (r : List Bytes × ReaderState Id),
    (∀ e ∈ s.entries, ∀ c ∈ bs, c.id ≠ e.id) → readBlobs C.hash src env s l = .ok r →
    ∀ c ∈ bs, c.id ∉ l := by
  have hload : ∀ q m st l n, src.read q = .ok st → src.index.packs.get? q = some m →
      Pack.loadLoop C.hash m st = .ok (l, n) → ∀ e ∈ l, ∀ c ∈ bs, c.id ≠ e.1 := by
    intro q m st l n h1 h2 h3 e he c hc hid
    have h2' := (BMap.get?_eq_some_iff (opens_packs_sorted ho)).mp h2
    have hin : e.1 ∈ m.map Entry.id := by
      have h4 := (Pack.loadLoop_sound C.hash _ _ _ _ h3).2.1
      have h5 : e.1 ∈ l.map Prod.fst := List.mem_map.mpr ⟨e, he, rfl⟩
      rw [h4] at h5
      obtain ⟨x, h6, h7⟩ := List.mem_map.mp h5
      exact List.mem_map.mpr ⟨x, (List.mem_filter.mp h6).1, h7⟩
    obtain ⟨x, h6, h7⟩ := List.mem_map.mp hin
    have a1 := (hR.lookup ho (b := e.1) (p := q)).mpr ⟨m, x, (hR.opens_mem ho q m).mp h2', h6, h7⟩
    have a2 := (hR.lookup ho (b := e.1) (p := p)).mpr ⟨_, _, hp.1, List.mem_map.mpr ⟨c, hc, rfl⟩, hid⟩
    rw [a1] at a2
    cases a2
    have a3 := (BMap.get?_eq_some_iff (opens_packs_sorted ho)).mpr ((hR.opens_mem ho p _).mpr hp.1)
    rw [h2] at a3
    cases a3
    obtain ⟨st', h8, h9⟩ := ho.read p bs hp.2
    rw [h1] at h8
    cases h8
    exact hne (loadLoop_hashes C.hash bs _ _ hk h9 h3 b hb)
  induction l with
  | nil => intro _ _ _ _ c _ hc; cases hc
  | cons id l ih =>
    intro s r hs h
    rw [readBlobs] at h
    split at h
    · cases h
    · rename_i x s' hx
      obtain ⟨h1, h2⟩ := Genuine.readBlob_inv (P := fun i _ => ∀ c ∈ bs, c.id ≠ i) hs hload hx
      split at h
      · cases h
      · rename_i y s'' hy
        intro c hc hin
        rcases List.mem_cons.mp hin with he | hin
        · exact h1 c hc he
        · exact ih s' _ h2 hy c hc hin

/-- What is sent is in a pack that counts once the threads are joined, whatever its bytes. -/
theorem sent_live {ids : Ids Id} {cores : Nat} {w : World Id} {start : Index Id} {here : List Id}
    {ss : List (Blob Id)} (hR : Filed w.repo)
    (hn : ∀ p bs, (p, bs) ∈ w.repo.packs → p = ids.packId (Pack.manifestOf bs)) (hL : Leftover C ids w)
    (hres : resumeFrom w = .ok (start, here)) (hne : ∀ b ∈ ss, b.data ≠ [])
    (hinj : PacksDiffer ids w (mainOf here ss)) (hx : IndexOk (liveCfg ids cores start) w.repo ss)
    {s : State Id} (h : Reachable (liveCfg ids cores start) w (mainOf here ss) s) (hj : s.joined = true) :
    Filed s.world.repo ∧ ∀ b ∈ ss, ∃ p bs, LivePack s.world.repo p bs ∧ b ∈ bs ∧ ∀ c ∈ bs, c.kind = b.kind := by
  have hr := runOk_ne (cores := cores) hR.packs_sorted hR.indexes_sorted hn hL hres hne hinj
  have h' : Reachable ⟨ids, true, cores, start, Involved w (mainOf here ss)⟩ w (mainOf here ss) s :=
    reachable_allowed (c := liveCfg ids cores start) (c' := ⟨ids, true, cores, start, Involved w (mainOf here ss)⟩)
      rfl rfl rfl rfl (fun cur hc => .inr (.inr hc)) h
  generalize hc : (⟨ids, true, cores, start, Involved w (mainOf here ss)⟩ : Cfg Id) = c at hr h'
  have hids : c.ids = ids := by rw [← hc]
  have hstart : c.start = start := by rw [← hc]
  have hsup : Covers c.start w.repo.indexes := by rw [hstart]; exact start_sup hL hres
  have hx' : IndexOk c w.repo (sends (mainOf here ss)) := by
    rw [sends_mainOf]
    rintro x ⟨x1, x2, news, rest, x3, x4, x5, x6⟩
    have := hx x ⟨by rw [x1, hstart]; rfl, x2, news, rest, x3,
      fun e he => ⟨by have := (x4 e he).1; rw [hids] at this; exact this, trivial⟩, x5,
      by rw [hstart] at x6; exact x6⟩
    rw [hids, hstart]
    exact this
  have he := effect hr h'
  rcases effect_joined hr h' hj with ⟨_, h1, h2⟩ | ⟨x, news, hN⟩
  · rw [sends_mainOf] at h1
    subst h1
    refine ⟨⟨he.psort, he.isort, ?_⟩, fun b hb => by cases hb⟩
    rw [h2]
    intro p m hl
    obtain ⟨bs, h3, h4⟩ := hR.present p m hl
    exact ⟨bs, he.keep _ h3, h4⟩
  · obtain ⟨hi1, hi2, hi3⟩ := hx' x hN.writes
    have hadd := listed_add hr.world.isort hi2 hi1 (by rw [hN.sup]; exact hi3) (hsup.writes hN.writes)
    have hlist : ∀ p m, Listed s.world.repo.indexes p m ↔ Listed w.repo.indexes p m ∨ (p, m) ∈ x.packs := by
      rw [hN.put]; exact hadd
    refine ⟨⟨he.psort, he.isort, ?_⟩, ?_⟩
    · intro p m hl
      rcases (hlist p m).mp hl with hl | hl
      · obtain ⟨bs, h3, h4⟩ := hR.present p m hl
        exact ⟨bs, he.keep _ h3, h4⟩
      · exact hN.there p m hl
    · intro b hb
      have hb' := hN.blobs.symm.subset ((sends_mainOf here ss).symm ▸ hb)
      obtain ⟨⟨p, bs⟩, h3, h4⟩ := List.mem_flatMap.mp hb'
      have h5 : (p, Pack.manifestOf bs) ∈ x.packs :=
        hN.packs.symm.subset (List.mem_append_right _ (List.mem_map.mpr ⟨_, h3, rfl⟩))
      obtain ⟨bs', h6, h7⟩ := hN.there p _ h5
      have hg := hN.good _ h3
      have hg' := he.names p bs' h6
      have : bs' = bs := Good_unique hr.inj hg' hg
      subst this
      obtain ⟨k, hk⟩ := (hN.kinds _ h3).2
      exact ⟨p, bs', ⟨(hlist _ _).mpr (.inr h5), h6⟩, h4, fun c hc => (hk c hc).trans (hk b h4).symm⟩

/-! ## What a backup of changing files sends -/

/-- What holds of the sends before a walk, and stays when a chunk of a file seen, or a tree, is offered, holds
after it. -/
theorem walk_sends {J : Sends Id → Prop} {Q : Blob Id → Prop} {filter : Path → Bool} {F : Forest Id} {H : History} {z : Nat}
    (hoffer : ∀ s b, J s → Q b → J (offer s b))
    (htree : ∀ t : Tree Id, Q ⟨C.encTree t, C.hash (C.encTree t), .tree⟩)
    (hfile : ∀ p t u x, Opened H cut z p t u x → ∀ b ∈ x.blobs C cut, Q b) (d : Dir Shot) :
    ∀ (pathOf : Name → Path) (prev : Option (Tree Id)) (t u : Nat) (tr tr' : Tree Id) (s s' : Sends Id),
    Saw H cut z filter F pathOf prev d t u → J s →
    walkFs (backupVisitorOf C (Shot.blobs C cut)) filter F pathOf prev d tr s = .ok (tr', s') → J s' := by
  have hoffers : ∀ (l : List (Blob Id)) (s : Sends Id), J s → (∀ b ∈ l, Q b) → J (l.foldl offer s) := by
    intro l
    induction l with
    | nil => intro s hs _; exact hs
    | cons b l ih =>
      intro s hs hl
      exact ih _ (hoffer s b hs (hl b (by simp))) (fun c hc => hl c (List.mem_cons_of_mem _ hc))
  have hmap : ∀ {y : Res (Tree Id)} {s s' : Sends Id} {tr' : Tree Id},
      y.map (fun t' => (t', s)) = .ok (tr', s') → s' = s := by
    intro y s s' tr' h
    cases y with
    | error e => cases h
    | ok t => cases h; rfl
  induction d with
  | nil => intro _ _ _ _ _ _ s s' _ hs h; cases h; exact hs
  | leaf n md l rest ih =>
    intro pathOf prev t u tr tr' s s' hsaw hs h
    unfold Saw at hsaw
    rw [walkFs] at h
    by_cases hf : filter (pathOf n) = false
    · rw [if_pos hf] at h hsaw
      exact ih _ _ _ _ _ _ _ _ hsaw hs h
    · rw [if_neg hf] at h hsaw
      obtain ⟨s1, v, _, _, _, h4, h5⟩ := hsaw
      cases l with
      | other => exact ih _ _ _ _ _ _ _ _ h5 hs h
      | link target =>
        dsimp only at h
        split at h
        · cases h
        · rename_i i' s2 hv
          refine ih _ _ _ _ _ _ _ _ h5 ?_ h
          rw [hmap hv]; exact hs
      | file x =>
        dsimp only at h h4
        obtain ⟨_, h4⟩ := h4
        split at h
        · cases h
        · rename_i ch hch
          split at h
          · cases h
          · rename_i i' s2 hv
            refine ih _ _ _ _ _ _ _ _ h5 ?_ h
            rw [hch] at h4
            cases ch with
            | true =>
              dsimp only at h4
              simp only [if_true] at hv
              rw [hmap hv]
              exact hoffers _ _ hs (hfile _ _ _ _ h4)
            | false =>
              simp only [Bool.false_eq_true, if_false, backupVisitorOf] at hv
              split at hv
              · cases hv
              · split at hv
                · cases hv
                · rw [hmap hv]; exact hs
  | dir n md sub rest ih1 ih2 =>
    intro pathOf prev t u tr tr' s s' hsaw hs h
    unfold Saw at hsaw
    rw [walkFs] at h
    by_cases hf : filter (pathOf n) = false
    · rw [if_pos hf] at h hsaw
      exact ih2 _ _ _ _ _ _ _ _ hsaw hs h
    · rw [if_neg hf] at h hsaw
      obtain ⟨_, _, _, _, _, _, _, _, h6, h7⟩ := hsaw
      dsimp only at h
      split at h
      · cases h
      · rename_i j s1 h1
        have a1 := ih1 _ _ _ _ _ _ _ _ h6 hs h1
        split at h
        · cases h
        · rename_i id s2 h2
          split at h
          · cases h
          · rename_i i' s3 h3
            refine ih2 _ _ _ _ _ _ _ _ h7 ?_ h
            rw [hmap h3]
            simp only [backupVisitorOf] at h2
            split at h2
            · cases h2; exact a1
            · cases h2; exact hoffer _ _ a1 (htree _)

/-- What is behind the plan of a backup of changing files. -/
theorem planOf_ok {w : World Id} {src : Source Id} {snaps : List (Snap Id)} {a : BackupArgs} {d : Dir Shot}
    {plan : Plan Id} (h : backupPlanOf C cut w src snaps a d = .ok plan) :
    ∃ (F : Forest Id) (known : BMap Id Unit) (here : List Id) (root : Id) (s : Sends Id),
      parentForest C src (parentSnapshot a.paths snaps) = .ok F ∧
      Index.blobIds src.index = .ok known ∧ resumeFrom w = .ok (plan.start, here) ∧
      backupTreeOf C cut a.filter F a.pathOf ((parentSnapshot a.paths snaps).map (·.tree)) d
        ⟨BMap.keys known ++ listedIds plan.start, []⟩ = .ok (root, s) ∧
      plan.main = (if a.dryRun then [] else here.map Op.up) ++ s.sent.map Op.send := by
  unfold backupPlanOf at h
  simp only at h
  split at h
  · cases h
  · rename_i F hF
    split at h
    · cases h
    · rename_i known hk
      split at h
      · cases h
      · rename_i start here hr
        split at h
        · cases h
        · rename_i root s hb
          cases h
          exact ⟨F, known, here, root, s, hF, hk, hr, hb, rfl⟩

/-- So for the whole backup. -/
theorem plan_sends {J : Sends Id → Prop} {Q : Blob Id → Prop} {H : History} {t z : Nat} {w : World Id}
    {src : Source Id} {snaps : List (Snap Id)} {a : BackupArgs} {d : Dir Shot} {plan : Plan Id}
    (hoffer : ∀ s b, J s → Q b → J (offer s b))
    (htree : ∀ t : Tree Id, Q ⟨C.encTree t, C.hash (C.encTree t), .tree⟩)
    (hfile : ∀ p t u x, Opened H cut z p t u x → ∀ b ∈ x.blobs C cut, Q b)
    (hinit : ∀ known, Index.blobIds src.index = .ok known → J ⟨BMap.keys known ++ listedIds plan.start, []⟩)
    (hs : BackupSaw H C cut src snaps a t z d) (h : backupPlanOf C cut w src snaps a d = .ok plan) :
    ∃ s : Sends Id, J s ∧ sends plan.main = s.sent := by
  obtain ⟨F, known, here, root, s, hF, hk, _, hb, hm⟩ := planOf_ok h
  obtain ⟨u, _, hsaw⟩ := hs.2 F hF
  refine ⟨s, ?_, ?_⟩
  · unfold backupTreeOf walkTop at hb
    split at hb
    · cases hb
    · rename_i i s1 h1
      have a1 := walk_sends hoffer htree hfile d _ _ _ _ _ _ _ _ hsaw (hinit known hk) h1
      simp only [backupVisitorOf] at hb
      split at hb
      · cases hb; exact a1
      · cases hb; exact hoffer _ _ a1 (htree _)
  · rw [hm]
    split
    · exact sends_mainOf [] _
    · exact sends_mainOf here _

theorem mapped_full {H : History} {i len z off t u : Nat} {l : List Piece} (hM : Mapped H cut i len z off t u l) :
    ∀ p ∈ l, p.packed ≠ [] := by
  induction hM with
  | done => intro p hp; cases hp
  | piece _ _ _ _ h5 _ _ _ h9 _ _ ih =>
    intro p hp
    rcases List.mem_cons.mp hp with rfl | hp
    · exact List.ne_nil_of_length_pos (by rw [h9]; exact h5)
    · exact ih p hp

/-- No blob sent is empty. -/
theorem planOf_full (hc : Chunk.Contract cut) {H : History} {t z : Nat} {w : World Id} {src : Source Id}
    {snaps : List (Snap Id)} {a : BackupArgs} {d : Dir Shot} {plan : Plan Id}
    (hs : BackupSaw H C cut src snaps a t z d) (h : backupPlanOf C cut w src snaps a d = .ok plan) :
    ∀ b ∈ sends plan.main, b.data ≠ [] := by
  obtain ⟨s, h1, h2⟩ := plan_sends (J := fun s => ∀ b ∈ s.sent, b.data ≠ []) (Q := fun b => b.data ≠ [])
    (by
      intro s b hs hb c hc
      unfold offer at hc
      split at hc
      · exact hs c hc
      · rcases List.mem_append.mp hc with hc | hc
        · exact hs c hc
        · rw [List.mem_singleton.mp hc]; exact hb)
    (fun t => C.enc_ne t)
    (fun p t u x hx b hb => by
      cases hx with
      | small => exact (C10.chunk_bounds _ cut hc _ b hb).1
      | large _ _ _ _ _ hM =>
        obtain ⟨q, hq, rfl⟩ := List.mem_map.mp hb
        exact mapped_full hM q hq)
    (fun _ _ b hb => by cases hb) hs h
  rw [h2]; exact h1

/-- No blob sent has an ID that the index lists. -/
theorem planOf_new {H : History} {t z : Nat} {w : World Id} {src : Source Id} {snaps : List (Snap Id)}
    {a : BackupArgs} {d : Dir Shot} {plan : Plan Id} (hs : BackupSaw H C cut src snaps a t z d)
    (h : backupPlanOf C cut w src snaps a d = .ok plan) {p : Id} {m : Manifest Id}
    (hl : (p, m) ∈ src.index.packs) : ∀ b ∈ sends plan.main, b.id ∉ m.map Entry.id := by
  obtain ⟨s, h1, h2⟩ := plan_sends (J := fun s => (∀ i ∈ m.map Entry.id, i ∈ s.packed) ∧
      ∀ b ∈ s.sent, b.id ∉ m.map Entry.id) (Q := fun _ => True)
    (by
      intro s b hs _
      unfold offer
      split
      · exact hs
      · rename_i hn
        refine ⟨fun i hi => List.mem_cons_of_mem _ (hs.1 i hi), fun c hc => ?_⟩
        rcases List.mem_append.mp hc with hc | hc
        · exact hs.2 c hc
        · rw [List.mem_singleton.mp hc]; exact fun hi => hn (hs.1 _ hi))
    (fun _ => trivial) (fun _ _ _ _ _ _ _ => trivial)
    (fun known hk => ⟨fun i hi => List.mem_append_left _ ((blobIds_iff hk i).mpr
      (List.mem_flatMap.mpr ⟨(p, m), hl, hi⟩)), fun b hb => by cases hb⟩) hs h
  rw [h2]; exact h1.2

end Backpak
