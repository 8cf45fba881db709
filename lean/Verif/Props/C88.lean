import Verif.Lemmas.CheckForgery
import Verif.Lemmas.Finish
import Verif.Lemmas.ReadBack
import Verif.Lemmas.Torn
import Verif.Props.C20

/-!
# C88 - A backup of files that change meanwhile

`Model/Changing` gives every system call of a backup a moment; between two of them anything may happen
to the filesystem. Small files are read once. Files from 10 MiB on are mapped, and looked at when they
are cut, when they are hashed and when they are packed.
-/

namespace Backpak.C88

open Spec Pipeline

variable {Id : Type} [LinearOrder Id] {C : Codec Id} {cut : Bytes → Nat} {ids : Ids Id} {cores : Nat}
  {src : Source Id} {snaps : List (Snap Id)} {a : BackupArgs} {plan : Plan Id} {H : History} {t z : Nat}
  {d : Dir Shot}

/-! ## When large files stay as they are -/

/-- If no file of 10 MiB or more changes once it is opened, a backup during which anything else changes
ends as a backup of a filesystem that stands still and holds what it found: its snapshot stands for that.
What it found of each file goes with metadata that the file had at a moment, and is what is in the file
if the file stays as it is from then on until the end. -/
theorem snapshot_holds_found_partial (w w' : World Id) (hs : BackupSaw H C cut src snaps a t z d)
    (hl : LargeStay H t z) (hB : BackupOk C cut ids w src snaps { a with fs := seen d })
    (hN : NoClash C cut ids cores w src snaps { a with fs := seen d } plan)
    (hp : backupPlanOf C cut w src snaps a d = .ok plan) (sn : Snapshot Id)
    (hsn : plan.post = .ok [.putSnap sn])
    (h : Finished (C13.cfg ids cores { a with fs := seen d } plan) w plan.main plan.posts w') :
    (ids.snapId sn, sn) ∈ w'.repo.snapshots ∧
    Holds C w'.repo sn.tree (arrange (Spec.keep a.filter a.pathOf (seen d))) ∧
    AllRecorded H t z a.pathOf (arrange (Spec.keep a.filter a.pathOf (seen d))) ∧
    Healthy C ids w'.repo := by
  have hp' := hp
  rw [plan_seen hB.chunker hl hs] at hp
  obtain ⟨h1, _, h2, h3⟩ := C20.snapshot_holds_partial w w' hB hN hp sn hsn h
  obtain ⟨F, _, _, _, _, hF, _⟩ := planOf_ok hp'
  obtain ⟨u, hu, hsaw⟩ := hs.2 F hF
  exact ⟨h1, h2, recorded_arrange (saw_recorded hB.chunker d _ _ _ _ (Nat.le_refl _) hu hsaw), h3⟩

/-- What is found of a file that is opened was in one file, which was at the path when it was opened: each
byte at its place, at some moment. -/
theorem found_bytes_were_there_partial (hc : Chunk.Contract cut) (hl : LargeStay H t z) (p : Path) (s u : Nat) (x : Shot)
    (hs : t ≤ s) (hu : u ≤ z) (h : Opened H cut z p s u x) :
    ∃ i o, s ≤ o ∧ o ≤ u ∧ (H o).file p = .ok i ∧ ∀ (j : Nat) (b : UInt8), (seenFile x)[j]? = some b →
      ∃ m, o ≤ m ∧ m ≤ u ∧ ((H m).bytes i)[j]? = some b := by
  cases h with
  | @small o v u i y h1 h2 h3 h4 h5 =>
    have h6 := readTo_le h5
    refine ⟨i, o, h1, by omega, h2, fun j b hb => ?_⟩
    obtain ⟨m, h7, h8, h9⟩ := (readTo_bytes h5).1.2 j b hb
    exact ⟨m, by omega, h8, by rwa [Nat.zero_add] at h9⟩
  | @large o v m u i l h1 h2 h3 h4 h5 h6 =>
    have h7 := mapped_le h6
    refine ⟨i, o, h1, by omega, h2, fun j b hb => ⟨m, by omega, h7, ?_⟩⟩
    have hst : ∀ w, m ≤ w → w ≤ z → (H w).bytes i = (H m).bytes i := fun w h8 h9 =>
      (hl p i o v (by omega) h2 h3 (by omega) h4 w (by omega) h9).trans
        (hl p i o v (by omega) h2 h3 (by omega) h4 m h5 (by omega)).symm
    have := (mapped_chunks (Id := Nat) hc (fun _ => 0) hu h6 hst).1
    rw [← this]
    exact hb

/-- The next backup may rely on it: if the parent snapshot stands for a tree as found by such a backup that
has ended before, and files whose kind, size and modification time are the same at two moments are the same
all the time between, then files that look unmodified are found as they are in the parent. Anything may
change during both. (It is the metadata that is read first: if a file is written to after that, its
modification time will differ the next time.) -/
theorem next_is_faithful (w : World Id) (hS : Sound C w.repo) (ho : Opens w.repo src)
    (hst : Stamped H) (p : Snapshot Id) (hpar : parentSnapshot a.paths snaps = some p) (d0 : Dir Bytes)
    (hd0 : Holds C w.repo p.tree d0) (t0 z0 : Nat) (hrec : AllRecorded H t0 z0 a.pathOf d0) (hz : z0 ≤ t)
    (hs : BackupSaw H C cut src snaps a t z d) :
    ∀ q d0', parentSnapshot a.paths snaps = some q → Holds C w.repo q.tree d0' →
      Faithful d0' (Spec.keep a.filter a.pathOf (seen d)) := by
  intro q d0' hq hd0'
  rw [hpar] at hq
  obtain rfl : p = q := Option.some.inj hq
  obtain rfl : d0 = d0' := holds_one hS hd0 hd0'
  obtain ⟨f, cache, hf, hheld⟩ := holds_forest hS ho hd0 newTreeCache_ok
  obtain ⟨u, hu, hsaw⟩ := hs.2 f (by rw [hpar]; unfold parentForest; dsimp only; rw [hf]; rfl)
  rw [hpar] at hsaw
  exact saw_faithful (PF := FileHolds C w.repo) hst d _ _ d0 _ _ hz hrec (.inr hheld) hsaw

/-! ## A file that grows during one backup, and the next backup -/

/-- `Demo.dir0` at every moment: at moment 5 a byte is appended to its second file. -/
def growing : History := fun n => {
  stat := fun p =>
    if p = [[104], [97]] then .ok (Demo.fileMd 3 5)
    else if p = [[104], [98]] then (if n < 5 then .ok (Demo.fileMd 3 6) else .ok (Demo.fileMd 4 8))
    else if p = [[104], [115]] then .ok Demo.dirMd
    else if p = [[104], [115], [99]] then .ok (Demo.fileMd 1 7)
    else if p = [[104], [115], [101]] then .ok Demo.dirMd
    else .error (.err "not found")
  list := fun p => if p = [[104], [115]] then .ok [[99], [101]] else .ok []
  link := fun _ => .error (.err "not a link")
  file := fun p =>
    if p = [[104], [97]] then .ok 0 else if p = [[104], [98]] then .ok 1
    else if p = [[104], [115], [99]] then .ok 2 else .error (.err "not found")
  bytes := fun i =>
    if i = 0 then [1, 2, 3] else if i = 1 then (if n < 5 then [1, 2, 3] else [1, 2, 3, 9]) else [4] }

/-- A file read in one go. -/
theorem read_now {H : History} {i n : Nat} : ReadTo H i 0 n n ((H n).bytes i) := by
  by_cases h : (H n).bytes i = []
  · rw [h]; exact .done (Nat.le_refl _) (by rw [h]; exact Nat.le_refl _)
  · rw [← List.append_nil ((H n).bytes i)]
    exact .more h ⟨Nat.le_refl _, fun j b hb => ⟨n, Nat.le_refl _, Nat.le_refl _, by rwa [Nat.zero_add]⟩⟩
      (.done (Nat.le_refl _) (by omega))

/-- A small file opened and read in one go. -/
theorem open_now {H : History} {cut : Bytes → Nat} {i n z : Nat} {p : Path} (h : (H n).file p = .ok i)
    (hl : ((H n).bytes i).length < mapFrom) : Opened H cut z p n n (.read ((H n).bytes i)) :=
  .small (Nat.le_refl _) h (Nat.le_refl _) hl read_now

theorem growing_short (n i : Nat) : ((growing n).bytes i).length < mapFrom := by
  have : ((growing n).bytes i).length ≤ 4 := by
    simp only [growing]
    split
    · decide
    · split
      · split <;> decide
      · decide
  have : 4 < mapFrom := by decide
  omega

theorem growing_stay (t z : Nat) : LargeStay growing t z := by
  intro p i o s _ _ _ _ h
  have := growing_short s i
  simp only [mapFrom] at *; omega

theorem growing_stamped : Stamped growing := by
  intro p s u m m' hsu h1 h2 hun
  have hkind : m.kind = .file := hun.2.1
  by_cases ha : p = [[104], [97]]
  · subst ha; exact ⟨[1, 2, 3], 0, fun v _ _ => ⟨rfl, rfl⟩⟩
  by_cases hb : p = [[104], [98]]
  · subst hb
    simp only [growing, if_neg ha, if_true] at h1 h2
    by_cases h5 : u < 5
    · exact ⟨[1, 2, 3], 1, fun v _ hv => ⟨rfl, by
        show (if v < 5 then [1, 2, 3] else [1, 2, 3, 9]) = _
        rw [if_pos (by omega)]⟩⟩
    · rw [if_neg h5] at h2
      by_cases h6 : s < 5
      · rw [if_pos h6] at h1
        cases h1; cases h2
        exact absurd hun.2.2.1 (by decide)
      · exact ⟨[1, 2, 3, 9], 1, fun v hv _ => ⟨rfl, by
          show (if v < 5 then [1, 2, 3] else [1, 2, 3, 9]) = _
          rw [if_neg (by omega)]⟩⟩
  by_cases hc : p = [[104], [115], [99]]
  · subst hc; exact ⟨[4], 2, fun v _ _ => ⟨rfl, rfl⟩⟩
  simp only [growing, if_neg ha, if_neg hb, if_neg hc] at h1
  split at h1
  · cases h1; cases hkind
  · split at h1
    · cases h1; cases hkind
    · cases h1

/-- What a backup at moment 0 finds. -/
def found0 : Dir Shot :=
  .leaf [97] (Demo.fileMd 3 5) (.file (.read [1, 2, 3])) <|
  .leaf [98] (Demo.fileMd 3 6) (.file (.read [1, 2, 3])) <|
  .leaf [108] Demo.linkMd (.link [97]) <|
  .dir [115] Demo.dirMd
    (.leaf [99] (Demo.fileMd 1 7) (.file (.read [4])) <| .dir [101] Demo.dirMd .nil .nil) .nil

theorem saw0 : BackupSaw growing Demo.codec Demo.cut Demo.src0 [] Demo.args0 0 7 found0 := by
  refine ⟨rfl, fun F hF => ?_⟩
  obtain rfl : [] = F := by cases hF; rfl
  refine ⟨0, by decide, ?_⟩
  unfold found0
  rw [Saw, if_neg (by decide)]
  refine ⟨0, 0, Nat.le_refl _, rfl, Nat.le_refl _, ⟨rfl, open_now (i := 0) rfl (growing_short _ _)⟩, ?_⟩
  rw [Saw, if_neg (by decide)]
  refine ⟨0, 0, Nat.le_refl _, rfl, Nat.le_refl _, ⟨rfl, open_now (i := 1) rfl (growing_short _ _)⟩, ?_⟩
  rw [Saw, if_pos (by decide), Saw, if_neg (by decide)]
  refine ⟨0, 0, 0, Nat.le_refl _, rfl, rfl, Nat.le_refl _, rfl, ?_, Nat.le_refl _⟩
  rw [Saw, if_neg (by decide)]
  refine ⟨0, 0, Nat.le_refl _, rfl, Nat.le_refl _, ⟨rfl, open_now (i := 2) rfl (growing_short _ _)⟩, ?_⟩
  rw [Saw, if_neg (by decide)]
  exact ⟨0, 0, 0, Nat.le_refl _, rfl, rfl, Nat.le_refl _, rfl, Nat.le_refl _, Nat.le_refl _⟩

theorem found0_seen : ({ Demo.args0 with fs := seen found0 } : BackupArgs) = Demo.args0 := rfl

theorem plan0_found : backupPlanOf Demo.codec Demo.cut Demo.world0 Demo.src0 [] Demo.args0 found0 = .ok Demo.plan0 := by
  rw [plan_seen Demo.cut_contract (growing_stay 0 7) saw0, found0_seen]
  exact Demo.plan0_eq

/-- The second backup leaves out all but the two files. -/
def nextArgs : BackupArgs :=
  { Demo.args0 with filter := fun p => p == [[104], [97]] || p == [[104], [98]] }

/-- What it finds at moment 10. -/
def found1 : Dir Shot :=
  .leaf [97] (Demo.fileMd 3 5) (.file (.unread [1, 2, 3])) <|
  .leaf [98] (Demo.fileMd 4 8) (.file (.read [1, 2, 3, 9])) <|
  .leaf [108] Demo.linkMd (.link [97]) <|
  .dir [115] Demo.dirMd .nil .nil

/-- A byte is appended to a file during a backup, which finishes with what it had read. The next backup
takes over the other file from the parent, rightly, and reads this one. -/
example : ∃ w' src', Finished (C13.cfg Demo.ids 4 Demo.args0 Demo.plan0) Demo.world0 Demo.plan0.main
      Demo.plan0.posts w' ∧
    Holds Demo.codec w'.repo Demo.snap0.tree (arrange (Spec.keep Demo.filter Demo.pathOf (seen found0))) ∧
    AllRecorded growing 0 7 Demo.pathOf (arrange (Spec.keep Demo.filter Demo.pathOf (seen found0))) ∧
    Opens w'.repo src' ∧
    BackupSaw growing Demo.codec Demo.cut src' [(Demo.snap0, Demo.ids.snapId Demo.snap0)] nextArgs 10 12 found1 ∧
    Faithful (arrange (Spec.keep Demo.filter Demo.pathOf (seen found0)))
      (Spec.keep nextArgs.filter Demo.pathOf (seen found1)) := by
  obtain ⟨t, ht, hj⟩ := C20.finishes Demo.world0 Demo.backupOk0 Demo.noClash0 rfl (Nat.le_refl 4)
    BMap.sorted_nil Demo.plan0_eq _ .refl
  have hf := Finished.mk (post := Demo.plan0.posts) t ht hj
  obtain ⟨_, h2, h3, h4⟩ := snapshot_holds_found_partial (a := Demo.args0) Demo.world0 _ saw0 (growing_stay 0 7)
    Demo.backupOk0 Demo.noClash0 plan0_found Demo.snap0 Demo.post0 hf
  obtain ⟨src', ho⟩ := C20.can_open _ h4
  have hpar : parentSnapshot nextArgs.paths [(Demo.snap0, Demo.ids.snapId Demo.snap0)] = some Demo.snap0 := by
    have : Demo.snap0.paths = nextArgs.paths := by decide +kernel
    simp [parentSnapshot, this]
  have hsaw : BackupSaw growing Demo.codec Demo.cut src' [(Demo.snap0, Demo.ids.snapId Demo.snap0)] nextArgs
      10 12 found1 := by
    refine ⟨rfl, fun F hF => ⟨10, by decide, ?_⟩⟩
    obtain ⟨f, cache, hff, t0, hget, hheld⟩ := holds_forest h4.sound ho h2 newTreeCache_ok
    rw [hpar] at hF ⊢
    have hF : f = F := by
      unfold parentForest at hF
      dsimp only at hF
      rw [hff] at hF
      cases hF
      rfl
    subst hF
    rw [Option.map_some, Option.bind_some, hget]
    unfold found1
    rw [Saw, if_neg (by decide)]
    refine ⟨10, 10, Nat.le_refl _, rfl, Nat.le_refl _, ⟨rfl, ?_⟩, ?_⟩
    · obtain ⟨cs, hcs⟩ := held_file (n := [97]) (m := Demo.fileMd 3 5) (x := [1, 2, 3]) hheld rfl
      rw [Option.bind_some, hcs, unmodified_unread ⟨rfl, rfl, rfl, rfl⟩]
      exact ⟨_, rfl, fun i hi => by cases hi; rfl⟩
    · rw [Saw, if_neg (by decide)]
      refine ⟨10, 10, Nat.le_refl _, rfl, Nat.le_refl _, ⟨rfl, ?_⟩, ?_⟩
      · obtain ⟨cs, hcs⟩ := held_file (n := [98]) (m := Demo.fileMd 3 6) (x := [1, 2, 3]) hheld rfl
        rw [Option.bind_some, hcs]
        rw [show fileChanged (Demo.fileMd 4 8) (some (⟨.file cs, Demo.fileMd 3 6⟩ : Node ObjectId)) = .ok true from rfl]
        exact open_now (i := 1) rfl (growing_short _ _)
      · rw [Saw, if_pos (by decide), Saw, if_pos (by decide), Saw]
  exact ⟨_, src', hf, h2, h3, ho, hsaw, next_is_faithful (a := nextArgs) _ h4.sound ho growing_stamped Demo.snap0 hpar _ h2 0 7
    h3 (by decide) hsaw _ _ hpar h2⟩

/-! ## When they do not -/

/-- A chunk sent whose bytes are no longer those that were hashed is in a pack that counts once the threads
are joined, and from then on no reader can read any chunk of that pack: of this file or of another. -/
theorem torn_chunk_spoils_pack (w : World Id) (hc : Chunk.Contract cut) (hR : Sound C w.repo)
    (hn : ∀ p bs, (p, bs) ∈ w.repo.packs → p = ids.packId (Pack.manifestOf bs)) (hL : Leftover C ids w)
    (hs : BackupSaw H C cut src snaps a t z d) (hp : backupPlanOf C cut w src snaps a d = .ok plan)
    (hlive : a.dryRun = false) (hpk : PacksDiffer ids w plan.main)
    (hx : IndexOk (liveCfg ids cores plan.start) w.repo (sends plan.main)) (s : State Id)
    (h : Reachable (liveCfg ids cores plan.start) w plan.main s) (hj : s.joined = true)
    (b : Blob Id) (hb : b ∈ sends plan.main) (hk : b.kind = .chunk) (hne : C.hash b.data ≠ b.id) :
    Filed s.world.repo ∧ ∃ p bs, LivePack s.world.repo p bs ∧ b ∈ bs ∧ (∀ c ∈ bs, c.kind = .chunk) ∧
      ∀ src', Opens s.world.repo src' → ∀ env l r,
        readBlobs C.hash src' env .new l = .ok r → ∀ c ∈ bs, c.id ∉ l := by
  obtain ⟨F, known, here, root, ss, _, _, hr, _, hm⟩ := planOf_ok hp
  have hmain : plan.main = mainOf here ss.sent := by rw [hm, hlive]; rfl
  have hfull := planOf_full hc hs hp
  rw [hmain] at hpk h hb hfull
  rw [hmain, sends_mainOf] at hx
  rw [sends_mainOf] at hb hfull
  obtain ⟨h1, h2⟩ := sent_live hR.filed hn hL hr hfull hpk hx h hj
  obtain ⟨p, bs, h3, h4, h5⟩ := h2 b hb
  have h6 : ∀ c ∈ bs, c.kind = .chunk := fun c hc => (h5 c hc).trans hk
  refine ⟨h1, p, bs, h3, h4, h6, fun src' ho env l r hrd c hc => ?_⟩
  exact torn_unread h1 ho h3 h6 h4 hne env l .new r (by intro e he; cases he) hrd c hc

/-- No later backup mends it, whatever it finds: while the pack counts, none sends any chunk of that pack
again, and the chunks stay unreadable. -/
theorem torn_chunk_stays (w : World Id) (hR : Filed w.repo) (ho : Opens w.repo src) (p : Id) (bs : Pack Id)
    (hp : LivePack w.repo p bs) (hk : ∀ c ∈ bs, c.kind = .chunk) (b : Blob Id) (hb : b ∈ bs)
    (hne : C.hash b.data ≠ b.id) :
    (BackupSaw H C cut src snaps a t z d → backupPlanOf C cut w src snaps a d = .ok plan →
      ∀ x ∈ sends plan.main, ∀ c ∈ bs, x.id ≠ c.id) ∧
    ∀ env l r, readBlobs C.hash src env .new l = .ok r → ∀ c ∈ bs, c.id ∉ l := by
  refine ⟨fun hs h x hx c hc he => ?_, fun env l r hrd c hc => ?_⟩
  · refine planOf_new hs h ((hR.opens_mem ho p _).mpr hp.1) x hx ?_
    rw [he]
    exact List.mem_map.mpr ⟨_, List.mem_map.mpr ⟨c, hc, rfl⟩, rfl⟩
  · exact torn_unread hR ho hp hk hb hne env l .new r (by intro e he; cases he) hrd c hc

/-! ## It happens -/

/-- A file of 10 MiB: zeros, and from moment 5 on ones. -/
def flipping : History := fun n => {
  stat := fun _ => .ok (Demo.fileMd mapFrom 5)
  list := fun _ => .ok []
  link := fun _ => .error (.err "not a link")
  file := fun _ => .ok 0
  bytes := fun _ => List.replicate mapFrom (if n < 5 then 0 else 1) }

def zeros (n : Nat) : Bytes := List.replicate n 0
def ones (n : Nat) : Bytes := List.replicate n 1

/-- What is found by a backup that cuts and hashes the file at moment 0, and packs it at moment 5. -/
def tornFound : Dir Shot :=
  .leaf [97] (Demo.fileMd mapFrom 5) (.file (.mapped
    [⟨zeros Chunk.maxSize, ones Chunk.maxSize⟩,
     ⟨zeros (mapFrom - Chunk.maxSize), ones (mapFrom - Chunk.maxSize)⟩])) .nil

def tornArgs : BackupArgs :=
  { Demo.args0 with paths := [Demo.pathOf [97]], fs := .leaf [97] (Demo.fileMd mapFrom 5) (.file []) .nil }

/-- The tree of the snapshot, -/
def tornTree (C : Codec Id) : Tree Id :=
  [([97], ⟨.file [C.hash (zeros Chunk.maxSize), C.hash (zeros (mapFrom - Chunk.maxSize))], Demo.fileMd mapFrom 5⟩)]

/-- the snapshot, -/
def tornSnap (C : Codec Id) : Snapshot Id :=
  ⟨tornArgs.now, tornArgs.tz, tornArgs.author, tornArgs.tags, tornArgs.paths, C.hash (C.encTree (tornTree C))⟩

/-- and the blobs. -/
def tornOne (C : Codec Id) : Blob Id := ⟨ones Chunk.maxSize, C.hash (zeros Chunk.maxSize), .chunk⟩
def tornTwo (C : Codec Id) : Blob Id :=
  ⟨ones (mapFrom - Chunk.maxSize), C.hash (zeros (mapFrom - Chunk.maxSize)), .chunk⟩
def tornRoot (C : Codec Id) : Blob Id := ⟨C.encTree (tornTree C), C.hash (C.encTree (tornTree C)), .tree⟩
def tornBlobs (C : Codec Id) : List (Blob Id) := [tornOne C, tornTwo C, tornRoot C]

def tornPlan (C : Codec Id) : Plan Id :=
  ⟨Index.empty, (tornBlobs C).map Op.send, .ok [.putSnap (tornSnap C)]⟩

/-- An empty repository and working directory. -/
def bare (Id : Type) : World Id := ⟨⟨[], [], []⟩, ⟨none, [], []⟩⟩

theorem shown_rep {H : History} {i off t u n len : Nat} {b : UInt8} (htu : t ≤ u)
    (h : (H u).bytes i = List.replicate len b) : ShownAt H i off t u (List.replicate n b) := by
  refine ⟨htu, fun j c hc => ⟨u, htu, Nat.le_refl _, fun b' hb' => ?_⟩⟩
  rw [h] at hb'
  rw [List.getElem?_replicate] at hc hb'
  split at hc
  · split at hb'
    · exact (Option.some.inj hc).symm.trans (Option.some.inj hb')
    · cases hb'
  · cases hc

theorem tornSaw (src : Source Id) : BackupSaw flipping C Demo.cut src [] tornArgs 0 5 tornFound := by
  have hm : Chunk.maxSize ≤ mapFrom := by decide
  have hp : 0 < Chunk.maxSize := by decide
  have hq : mapFrom - Chunk.maxSize < Chunk.maxSize := by decide
  have hr : 0 < mapFrom - Chunk.maxSize := by decide
  have h0 : (flipping 0).bytes 0 = List.replicate mapFrom 0 := rfl
  have h5 : (flipping 5).bytes 0 = List.replicate mapFrom 1 := rfl
  have hl : ((flipping 0).bytes 0).length = mapFrom := by rw [h0, List.length_replicate]
  have hcut : ∀ n, Demo.cut (zeros n) = min n Chunk.maxSize := by
    intro n; rw [Demo.cut, zeros, List.length_replicate]
  refine ⟨rfl, fun F hF => ⟨0, by decide, ?_⟩⟩
  unfold tornFound
  rw [Saw, if_neg (by decide)]
  refine ⟨0, 0, Nat.le_refl _, rfl, Nat.le_refl _, ⟨rfl, ?_⟩, Nat.le_refl _⟩
  have hno : ((parentSnapshot tornArgs.paths ([] : List (Snap Id))).map (·.tree)).bind (fun id => F.get? id) = none := rfl
  rw [hno]
  show Opened flipping Demo.cut 5 _ 0 0 _
  refine .large (Nat.le_refl _) (i := 0) rfl (Nat.le_refl 0) (by rw [hl]) (Nat.le_refl 0) ?_
  rw [hl]
  refine .piece (r := zeros mapFrom) (c := 0) (h := 0) (p := 5) (Nat.le_refl _) (Nat.le_refl _) ?_ ?_ ?_ ?_ ?_ ?_ ?_ ?_ ?_
  · rw [zeros, List.length_replicate]; rfl
  · exact shown_rep (Nat.le_refl _) h0
  · rw [hcut]; omega
  · rw [hcut]; omega
  · rw [hcut, zeros, List.length_replicate]; omega
  · exact shown_rep (Nat.le_refl _) h0
  · rw [hcut, ones, List.length_replicate]; omega
  · exact shown_rep (by decide) h5
  · rw [hcut, Nat.min_eq_right hm, Nat.zero_add]
    refine .piece (r := zeros (mapFrom - Chunk.maxSize)) (c := 0) (h := 0) (p := 5) (Nat.le_refl _) (Nat.le_refl _)
      ?_ ?_ ?_ ?_ ?_ ?_ ?_ ?_ ?_
    · rw [zeros, List.length_replicate]
    · exact shown_rep (Nat.le_refl _) h0
    · rw [hcut]; omega
    · rw [hcut]; omega
    · rw [hcut, zeros, List.length_replicate]; omega
    · exact shown_rep (Nat.le_refl _) h0
    · rw [hcut, ones, List.length_replicate]; omega
    · exact shown_rep (by decide) h5
    · rw [hcut, Nat.min_eq_left (by omega), show Chunk.maxSize + (mapFrom - Chunk.maxSize) = mapFrom by omega]
      refine .done (r := []) (Nat.le_refl _) (by decide) (by rw [Nat.sub_self]; rfl)
        (shown_rep (n := 0) (Nat.le_refl _) h0) ?_
      rw [Nat.sub_self]; omega

theorem offer_new {s : Sends Id} {b : Blob Id} (h : b.id ∉ s.packed) :
    offer s b = ⟨b.id :: s.packed, s.sent ++ [b]⟩ := if_neg h

theorem tornPlan_eq (src : Source Id) (hsrc : src.index = Index.empty)
    (hne : C.hash (C.encTree (tornTree C)) ≠ C.emptyId)
    (hd : ((tornBlobs C).map Blob.id).Nodup) :
    backupPlanOf C Demo.cut (bare Id) src [] tornArgs tornFound = .ok (tornPlan C) := by
  simp only [tornBlobs, tornOne, tornTwo, tornRoot, List.map_cons, List.map_nil, List.nodup_cons, List.mem_cons,
    List.not_mem_nil, or_false, not_or] at hd
  obtain ⟨⟨h1, h2⟩, h3, _⟩ := hd
  have hb : Index.blobIds src.index = .ok [] := by rw [hsrc]; rfl
  have hres : resumeFrom (bare Id) = .ok (Index.empty, []) := rfl
  have ho : offer (offer ⟨[], []⟩ (tornOne C)) (tornTwo C) =
      ⟨[C.hash (zeros (mapFrom - Chunk.maxSize)), C.hash (zeros Chunk.maxSize)], [(tornOne C), (tornTwo C)]⟩ := by
    rw [offer_new (s := ⟨[], []⟩) (b := tornOne C) (by simp),
      offer_new (b := tornTwo C) (by simpa [tornOne, tornTwo] using Ne.symm h1)]
    rfl
  have hw : walkFs (backupVisitorOf C (Shot.blobs C Demo.cut)) tornArgs.filter ([] : Forest Id) tornArgs.pathOf none
      tornFound [] ⟨[], []⟩ = .ok (tornTree C, offer (offer ⟨[], []⟩ (tornOne C)) (tornTwo C)) := rfl
  have ht : backupTreeOf C Demo.cut tornArgs.filter ([] : Forest Id) tornArgs.pathOf none tornFound ⟨[], []⟩ =
      .ok (C.hash (C.encTree (tornTree C)), ⟨C.hash (C.encTree (tornTree C)) ::
        [C.hash (zeros (mapFrom - Chunk.maxSize)), C.hash (zeros Chunk.maxSize)], tornBlobs C⟩) := by
    unfold backupTreeOf walkTop
    rw [show (backupVisitorOf C (Shot.blobs C Demo.cut)).init = [] from rfl, Option.bind_none, hw, ho]
    dsimp only [backupVisitorOf]
    rw [if_neg (by simp [tornTree])]
    rw [offer_new (by simp only [List.mem_cons, List.not_mem_nil, or_false, not_or]; exact ⟨Ne.symm h3, Ne.symm h2⟩)]
    rfl
  unfold backupPlanOf
  dsimp only
  rw [show parentForest C src (parentSnapshot tornArgs.paths []) = .ok [] from rfl, hb, hres]
  dsimp only
  rw [show BMap.keys ([] : BMap Id Unit) ++ listedIds (Index.empty : Index Id) = [] from rfl,
    show (parentSnapshot tornArgs.paths ([] : List (Snap Id))).map (·.tree) = none from rfl, ht]
  dsimp only
  rw [show (if tornArgs.dryRun = true then [] else ([] : List Id).map Op.up) = ([] : List (Op Id)) from rfl, List.nil_append]
  unfold tornPlan
  congr 2
  unfold backupPost
  rw [if_neg (fun h => hne h.1)]
  rfl

theorem mem_insert_self {K V : Type} [LinearOrder K] (k : K) (v : V) (m : BMap K V) : (k, v) ∈ BMap.insert k v m := by
  induction m with
  | nil => simp [BMap.insert]
  | cons e m ih =>
    obtain ⟨k', v'⟩ := e
    rw [BMap.insert]
    split
    · simp
    · split
      · simp
      · exact List.mem_cons_of_mem _ ih

omit [LinearOrder Id] in
theorem torn_ok (C : Codec Id) : Serde.OkTree (tornTree C) where
  sorted := by simp [BMap.Sorted, tornTree, BMap.keys]
  len := by simp [tornTree]
  names := by simp [tornTree]
  contents := by simp [tornTree, Serde.OkContents]
  mds := by simp [tornTree, Demo.fileMd, mapFrom, Serde.OkMeta, Serde.InI64]

/-- A file of 10 MiB is overwritten while it is backed up, after its chunks were hashed and before they were
packed. The backup can finish; and whenever it does, its snapshot has a file of which no reader can read
a chunk. -/
theorem torn_happens (hcores : 4 ≤ cores) (hne : C.hash (C.encTree (tornTree C)) ≠ C.emptyId)
    (hd : ((tornBlobs C).map Blob.id).Nodup) (hz : C.hash (ones Chunk.maxSize) ≠ C.hash (zeros Chunk.maxSize))
    (hpk : PacksDiffer ids (bare Id) ((tornBlobs C).map Op.send)) (src : Source Id) (hsrc : src.index = Index.empty) :
    BackupSaw flipping C Demo.cut src [] tornArgs 0 5 tornFound ∧
    backupPlanOf C Demo.cut (bare Id) src [] tornArgs tornFound = .ok (tornPlan C) ∧
    (∃ w', Finished (C13.cfg ids cores tornArgs (tornPlan C)) (bare Id) (tornPlan C).main (tornPlan C).posts w') ∧
    ∀ w', Finished (C13.cfg ids cores tornArgs (tornPlan C)) (bare Id) (tornPlan C).main (tornPlan C).posts w' →
      (ids.snapId (tornSnap C), tornSnap C) ∈ w'.repo.snapshots ∧
      TreeAt C w'.repo (tornSnap C).tree (tornTree C) ∧
      (∃ cs, (tornTree C).get? [97] = some ⟨.file (C.hash (zeros Chunk.maxSize) :: cs), Demo.fileMd mapFrom 5⟩) ∧
      ∀ src', Opens w'.repo src' → ∀ env l r, readBlobs C.hash src' env .new l = .ok r →
        C.hash (zeros Chunk.maxSize) ∉ l := by
  have hH := Demo.healthy_empty C ids
  have hL : Leftover C ids (bare Id) := Demo.leftover_clean hH
  have hsaw := tornSaw (C := C) src
  have hplan := tornPlan_eq src hsrc hne hd
  have hmain : (tornPlan C).main = mainOf [] (tornBlobs C) := rfl
  have hres : resumeFrom (bare Id) = .ok (Index.empty, []) := rfl
  have hfull : ∀ b ∈ tornBlobs C, b.data ≠ [] := by
    have := planOf_full Demo.cut_contract hsaw hplan
    rwa [hmain, sends_mainOf] at this
  have hsends : sends (tornPlan C).main = tornBlobs C := by rw [hmain, sends_mainOf]
  have hx : IndexOk (liveCfg ids cores (tornPlan C).start) (bare Id).repo (sends (tornPlan C).main) := by
    intro x _
    refine ⟨?_, ?_, ?_⟩
    · rintro ⟨i, y, hy, _⟩; cases hy
    · intro y hy; cases hy
    · intro hy; cases hy
  refine ⟨hsaw, hplan, ?_, ?_⟩
  · have hr := runOk_ne (C := C) (cores := cores) (w := bare Id) BMap.sorted_nil BMap.sorted_nil
      (fun p bs h => by cases h) hL hres hfull hpk
    have hg : C16.Given ⟨ids, true, cores, Index.empty, Involved (bare Id) (mainOf [] (tornBlobs C))⟩ (bare Id) []
        (tornBlobs C) :=
      ⟨hr.world, .nil, (by intro p h; cases h), hr.startSort, hfull, hd.of_map _, (by intro p m h; cases h),
        fun cur hc => .inr (.inr hc), hpk⟩
    obtain ⟨⟨t, ht, hj⟩, _⟩ := C16.finishes_partial _ (bare Id) [] (tornBlobs C) _ hcores hg .refl
    exact ⟨_, Finished.mk (post := (tornPlan C).posts) t (reachable_allowed
      (c := ⟨ids, true, cores, Index.empty, Involved (bare Id) (mainOf [] (tornBlobs C))⟩)
      (c' := C13.cfg ids cores tornArgs (tornPlan C)) rfl rfl rfl rfl (fun _ _ => trivial) ht) hj⟩
  · intro w' h
    obtain ⟨s, hs, hj⟩ := h
    have hlive := sent_live (C := C) (ids := ids) (cores := cores) (w := bare Id) hH.sound.filed (fun p bs h => by cases h)
      hL hres hfull hpk (by rw [hsends] at hx; exact hx) hs hj
    obtain ⟨hf, p, bs, h3, h4, h5, h6⟩ := torn_chunk_spoils_pack (ids := ids) (cores := cores) (bare Id) Demo.cut_contract
      hH.sound (fun p bs h => by cases h) hL hsaw hplan rfl hpk hx s hs hj (tornOne C)
      (by rw [hsends]; exact List.mem_cons_self) rfl hz
    have hsame : ∀ R : Repo Id, ((tornPlan C).posts.foldl (applyPost ids) R) =
        { R with snapshots := BMap.insert (ids.snapId (tornSnap C)) (tornSnap C) R.snapshots } := fun _ => rfl
    rw [show (C13.cfg ids cores tornArgs (tornPlan C)).ids = ids from rfl, hsame]
    have hf' : Filed { s.world.repo with
        snapshots := BMap.insert (ids.snapId (tornSnap C)) (tornSnap C) s.world.repo.snapshots } :=
      ⟨hf.packs_sorted, hf.indexes_sorted, hf.present⟩
    refine ⟨?_, ⟨torn_ok C, rfl, .inr ⟨rfl, ?_⟩⟩, ⟨_, rfl⟩, fun src' ho env l r hrd => ?_⟩
    · exact mem_insert_self _ _ _
    · obtain ⟨q, cs, h7, h8, _⟩ := hlive.2 (tornRoot C) (by simp [tornBlobs])
      exact ⟨q, cs, h7.1, h7.2, h8⟩
    · exact torn_unread hf' ho (p := p) (bs := bs) h3 h5 h4 hz env l .new r (by intro e he; cases he) hrd _ h4

/-! With a hash of the length and the first byte: -/

def oid (n : Nat) : ObjectId := ⟨(List.range 28).map (fun i => UInt8.ofNat (n / 256 ^ i)), by simp⟩

def sizeHash (x : Bytes) : ObjectId := oid (2 * x.length + if x.head? = some 1 then 1 else 0)

def sizeIds : Ids ObjectId := { Demo.ids with packId := fun m => oid (m.map Entry.length).sum }

def sizeCodec : Codec ObjectId := Codec.real sizeHash

theorem oid_inj {n m : Nat} (h : oid n = oid m) (hn : n < 2 ^ 32) (hm : m < 2 ^ 32) : n = m := by
  have h1 : (List.range 28).map (fun i => UInt8.ofNat (n / 256 ^ i)) =
      (List.range 28).map (fun i => UInt8.ofNat (m / 256 ^ i)) := congrArg ObjectId.digest h
  have h2 := Demo.digits_same n m 28 (fun i hi => List.map_inj_left.mp h1 i (List.mem_range.mpr hi))
  rw [Nat.mod_eq_of_lt (by omega), Nat.mod_eq_of_lt (by omega)] at h2
  exact h2

theorem hash_zeros (n : Nat) (h : 0 < n) : sizeHash (zeros n) = oid (2 * n) := by
  obtain ⟨n, rfl⟩ : ∃ m, n = m + 1 := ⟨n - 1, by omega⟩
  simp [sizeHash, zeros, List.length_replicate, List.replicate_succ]

theorem hash_ones (n : Nat) (h : 0 < n) : sizeHash (ones n) = oid (2 * n + 1) := by
  obtain ⟨n, rfl⟩ : ∃ m, n = m + 1 := ⟨n - 1, by omega⟩
  simp [sizeHash, ones, List.length_replicate, List.replicate_succ]

def sizeTree : Tree ObjectId :=
  [([97], ⟨.file [oid (2 * Chunk.maxSize), oid (2 * (mapFrom - Chunk.maxSize))], Demo.fileMd mapFrom 5⟩)]

theorem sizeTree_eq : tornTree sizeCodec = sizeTree := by
  unfold tornTree sizeTree
  rw [show sizeCodec.hash = sizeHash from rfl, hash_zeros _ (by decide), hash_zeros _ (by decide)]

theorem sizeTree_hash : sizeHash (Serde.encTree sizeTree) = oid 272 ∧ (Serde.encTree sizeTree).length = 136 := by
  decide +kernel

theorem size_ids : (tornBlobs sizeCodec).map Blob.id = [oid 16777216, oid 4194304, oid 272] := by
  simp only [tornBlobs, tornOne, tornTwo, tornRoot, List.map_cons, List.map_nil]
  rw [sizeTree_eq, show sizeCodec.hash = sizeHash from rfl, hash_zeros _ (by decide), hash_zeros _ (by decide),
    show sizeCodec.encTree = Serde.encTree from rfl, sizeTree_hash.1]
  rfl

theorem three_formed {x y r : Blob ObjectId} (hx : x.kind = .chunk) (hy : y.kind = .chunk) (hr : r.kind = .tree)
    {cur : Pack ObjectId} (h : FormedBy ([x, y, r].map Op.send) cur) :
    cur = [x] ∨ cur = [y] ∨ cur = [x, y] ∨ cur = [r] := by
  have hm := Demo.formed_mem h
  have hs : Demo.packsOf ([x, y, r].map Op.send) = Demo.infixes [x, y] ++ Demo.infixes [r] := by
    simp [Demo.packsOf, sends, ofKind, hx, hy, hr]
  rw [hs] at hm
  have h0 := h.1
  simp [Demo.infixes] at hm
  tauto

theorem one_id (x : Blob ObjectId) : sizeIds.packId (Pack.manifestOf [x]) = oid x.data.length := by
  simp [sizeIds, Pack.manifestOf, Pack.entryOf]

theorem two_id (x y : Blob ObjectId) :
    sizeIds.packId (Pack.manifestOf [x, y]) = oid (x.data.length + y.data.length) := by
  simp [sizeIds, Pack.manifestOf, Pack.entryOf]

theorem ones_length (n : Nat) : (ones n).length = n := List.length_replicate

theorem size_formed (cur : Pack ObjectId) (h : Involved (bare ObjectId) ((tornBlobs sizeCodec).map Op.send) cur) :
    (cur = [tornOne sizeCodec] ∧ sizeIds.packId (Pack.manifestOf cur) = oid 8388608) ∨
    (cur = [tornTwo sizeCodec] ∧ sizeIds.packId (Pack.manifestOf cur) = oid 2097152) ∨
    (cur = [tornOne sizeCodec, tornTwo sizeCodec] ∧ sizeIds.packId (Pack.manifestOf cur) = oid 10485760) ∨
    (cur = [tornRoot sizeCodec] ∧ sizeIds.packId (Pack.manifestOf cur) = oid 136) := by
  have h1 : (tornOne sizeCodec).data.length = 8388608 := ones_length Chunk.maxSize
  have h2 : (tornTwo sizeCodec).data.length = 2097152 := ones_length (mapFrom - Chunk.maxSize)
  have h3 : (tornRoot sizeCodec).data.length = 136 := by
    simp only [tornRoot]
    rw [sizeTree_eq]
    exact sizeTree_hash.2
  have hc : cur = [tornOne sizeCodec] ∨ cur = [tornTwo sizeCodec] ∨
      cur = [tornOne sizeCodec, tornTwo sizeCodec] ∨ cur = [tornRoot sizeCodec] := by
    rcases h with ⟨p, h⟩ | ⟨p, h⟩ | h
    · cases h
    · cases h
    · exact three_formed rfl rfl rfl h
  rcases hc with rfl | rfl | rfl | rfl
  · exact .inl ⟨rfl, by rw [one_id, h1]⟩
  · exact .inr (.inl ⟨rfl, by rw [one_id, h2]⟩)
  · exact .inr (.inr (.inl ⟨rfl, by rw [two_id, h1, h2]⟩))
  · exact .inr (.inr (.inr ⟨rfl, by rw [one_id, h3]⟩))

example : ∃ w', Finished (C13.cfg sizeIds 4 tornArgs (tornPlan sizeCodec)) (bare ObjectId) (tornPlan sizeCodec).main
      (tornPlan sizeCodec).posts w' ∧
    ∀ src', Opens w'.repo src' → ∀ env l r, readBlobs sizeHash src' env .new l = .ok r → oid 16777216 ∉ l := by
  have hz : sizeHash (zeros Chunk.maxSize) = oid 16777216 := hash_zeros _ (by decide)
  have := torn_happens (C := sizeCodec) (ids := sizeIds) (Nat.le_refl 4) ?_ ?_ ?_ ?_ Demo.src0 rfl
  · obtain ⟨_, _, ⟨w', hw⟩, hall⟩ := this
    have h4 := (hall w' hw).2.2.2
    rw [show sizeCodec.hash = sizeHash from rfl, hz] at h4
    exact ⟨w', hw, h4⟩
  · rw [sizeTree_eq]
    decide +kernel
  · rw [size_ids]; decide +kernel
  · rw [show sizeCodec.hash = sizeHash from rfl, hz, hash_ones _ (by decide)]
    decide +kernel
  · intro x y hx hy he
    rcases size_formed x hx with ⟨h1, h2⟩ | ⟨h1, h2⟩ | ⟨h1, h2⟩ | ⟨h1, h2⟩ <;>
    rcases size_formed y hy with ⟨h3, h4⟩ | ⟨h3, h4⟩ | ⟨h3, h4⟩ | ⟨h3, h4⟩ <;>
    first
    | (rw [h2, h4] at he; exact absurd (oid_inj he (by decide) (by decide)) (by decide))
    | exact h1.trans h3.symm

/-- A pack of two chunks, the second with another's ID. -/
def spoiled : Pack ObjectId := [⟨[7], Demo.hash [7], .chunk⟩, ⟨[1], Demo.hash [2], .chunk⟩]

def spoiledRepo : Repo ObjectId :=
  ⟨[(oid 1, spoiled)], [(oid 2, ⟨[], [(oid 1, Pack.manifestOf spoiled)]⟩)], []⟩

def spoiledSrc : Source ObjectId :=
  sourceOf spoiledRepo ⟨[], [(oid 1, Pack.manifestOf spoiled)]⟩
    (match Index.blobToPack (⟨[], [(oid 1, Pack.manifestOf spoiled)]⟩ : Index ObjectId) with
      | .ok m => m
      | .error _ => [])

/-- The first cannot be read either. -/
example (env : CacheEnv ObjectId) (r : List Bytes × ReaderState ObjectId) :
    readBlobs Demo.hash spoiledSrc env .new [Demo.hash [7]] ≠ .ok r := by
  have hl : ∀ p m, Listed spoiledRepo.indexes p m → (p, m) = (oid 1, Pack.manifestOf spoiled) := by
    rintro p m ⟨i, x, ⟨h, _⟩, hm⟩
    cases List.mem_singleton.mp h
    exact List.mem_singleton.mp hm
  have hf : Filed spoiledRepo := by
    refine ⟨by simp [spoiledRepo, BMap.Sorted, BMap.keys], by simp [spoiledRepo, BMap.Sorted, BMap.keys], ?_⟩
    intro p m h
    cases hl p m h
    exact ⟨_, List.mem_singleton.mpr rfl, rfl⟩
  have ho : Opens spoiledRepo spoiledSrc := by
    refine ⟨⟨_, .refl _, by decide +kernel⟩, by decide +kernel, ?_, ?_⟩
    · intro p bs h
      cases List.mem_singleton.mp h
      exact ⟨_, rfl, List.prefix_rfl⟩
    · intro p h
      have hg : spoiledRepo.packs.get? p = none := by
        cases hg : spoiledRepo.packs.get? p with
        | none => rfl
        | some bs => exact absurd (List.mem_map.mpr ⟨_, BMap.mem_of_get? hg, rfl⟩) h
      refine ⟨"no such pack", ?_⟩
      unfold spoiledSrc sourceOf
      dsimp only
      rw [hg]
  intro h
  refine (torn_chunk_stays (C := Demo.codec) (cut := Demo.cut) (snaps := []) (a := Demo.args0) (plan := Demo.plan0)
    (H := growing) (t := 0) (z := 0) (d := .nil) ⟨spoiledRepo, ⟨none, [], []⟩⟩ hf ho (oid 1) spoiled ⟨?_, List.mem_singleton.mpr rfl⟩ (by decide) _
    (List.mem_cons_of_mem _ List.mem_cons_self) (by decide +kernel)).2 env _ r h _ List.mem_cons_self List.mem_cons_self
  exact ⟨oid 2, _, ⟨List.mem_singleton.mpr rfl, by
    rintro ⟨i, x, hx, hi⟩
    cases List.mem_singleton.mp hx
    cases hi⟩, List.mem_singleton.mpr rfl⟩

end Backpak.C88
