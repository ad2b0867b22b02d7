import Verif.Model.FileCopy
import Verif.Props.IoCopy
import Verif.Props.FsOpen
/-!
# Property C168: copying a stream into a file
-/

set_option linter.unusedSectionVars false

namespace Verif.IoCopy

variable {S : Type} {W : Write S}

theorem writeAll_all (P : S → Prop) (hP : ∀ s p, P s → P (W s p).1) (p : List Byte) : ∀ (l : List S) (nw : Nat),
    (∀ s ∈ l, P s) → (∀ s ∈ (writeAll W p l nw).1, P s) ∧ (writeAll W p l nw).1.length = l.length := by
  intro l
  induction l with
  | nil => intro nw h; exact ⟨h, rfl⟩
  | cons a l ih =>
    intro nw h
    simp only [writeAll]
    have ha := hP a p (h a (List.mem_cons_self ..))
    have hl := fun s hs => h s (List.mem_cons_of_mem _ hs)
    split_ifs
    · exact ⟨by simp only [List.mem_cons, forall_eq_or_imp]; exact ⟨ha, hl⟩, by simp⟩
    · obtain ⟨g1, g2⟩ := ih (W a p).2.1 hl
      exact ⟨by simp only [List.mem_cons, forall_eq_or_imp]; exact ⟨ha, g1⟩, by simp [g2]⟩

theorem loop_all (P : S → Prop) (hP : ∀ s p, P s → P (W s p).1) (src : Reader) (bufLen : Nat) :
    ∀ (fuel n : Nat) (l : List S) (written : Nat) {r : List S × Nat × Option Err}, (∀ s ∈ l, P s) →
      loop W src bufLen fuel n l written = some r → (∀ s ∈ r.1, P s) ∧ r.1.length = l.length := by
  intro fuel
  induction fuel with
  | zero => intro n l w r _ h; simp [loop] at h
  | succ fuel ih =>
    intro n l w r hl h
    simp only [loop] at h
    obtain ⟨g1, g2⟩ := writeAll_all P hP (src n bufLen).data l 0 hl
    generalize writeAll W (src n bufLen).data l 0 = x at g1 g2 h
    obtain ⟨l', nw, ew⟩ := x
    simp only at g1 g2 h
    have next : ∀ (m k : Nat), loop W src bufLen fuel m l' k = some r → (∀ s ∈ r.1, P s) ∧ r.1.length = l.length :=
      fun m k h => by
        obtain ⟨a, b⟩ := ih m l' k g1 h
        exact ⟨a, b.trans g2⟩
    have next' : ∀ (m k : Nat), loop W src bufLen fuel m l k = some r → (∀ s ∈ r.1, P s) ∧ r.1.length = l.length :=
      fun m k h => ih m l k hl h
    split_ifs at h <;> first
      | exact next _ _ h
      | exact next' _ _ h
      | (cases h; exact ⟨g1, g2⟩)
      | (cases h; exact ⟨hl, rfl⟩)

end Verif.IoCopy

namespace Verif.FsLinks
open Verif.Spec Verif.Path Verif.IoCopy

/-- A file is a writer as C66 asks for. -/
theorem File.contract : Contract File.write (fun f => f.w.data f.ino) File.errs := by
  constructor <;> intro s p <;> simp only [File.write] <;> split_ifs <;> simp [Store.write] <;> omega

/-- Writing to an open file changes this file only. -/
theorem File.frame (w : Store) (j : Nat) (f : File) (p : List Byte)
    (h : f.ino = j ∧ f.w.F = w.F ∧ ∀ k, k ≠ j → f.w.data k = w.data k) :
    (File.write f p).1.ino = j ∧ (File.write f p).1.w.F = w.F ∧ ∀ k, k ≠ j → (File.write f p).1.w.data k = w.data k := by
  obtain ⟨h1, h2, h3⟩ := h
  unfold File.write
  split_ifs <;> exact ⟨h1, h2, fun k hk => by simp only [Store.write]; rw [if_neg (by rw [h1]; exact hk)]; exact h3 k hk⟩

variable {w w1 : Store} {cwd : List Str} {me : Str} {i j : Nat} {e : List Str}

/-- **C168.** A file is created and a stream copied into it.  If the copy returns without error, the stream was read up to its
end, and reading the file by its path gives exactly the stream; the count is its length. -/
theorem C168_copy (hF : w.F.Ok) (hc : create w cwd me i = some (w1, e)) (hj : w1.F e = some (.file j)) (src : Reader)
    (room fuel : Nat) {fs : List File} {written : Nat}
    (h : copys File.write src [⟨w1, j, room, []⟩] fuel = some (fs, written, none)) :
    ∃ f n, fs = [f] ∧ (∀ k < n, (src k (32 * 1024)).err = none) ∧ (src n (32 * 1024)).err = some .eof ∧
      openRead f.w cwd me = some (total src (32 * 1024) (n + 1)) ∧ written = (total src (32 * 1024) (n + 1)).length := by
  have ho := (C66_copies_everything_partial File.contract src none [⟨w1, j, room, []⟩] (by simp) fuel h).ok rfl
  obtain ⟨n, h1, h2, h3, h4⟩ := ho
  have ha := loop_all (fun f : File => f.ino = j ∧ f.w.F = w1.F ∧ ∀ k, k ≠ j → f.w.data k = w1.data k)
    (fun s p hs => File.frame w1 j s p hs) src _ fuel 0 [⟨w1, j, room, []⟩] 0 (by simp) h
  obtain ⟨f, rfl⟩ : ∃ f, fs = [f] := List.length_eq_one_iff.1 ha.2
  obtain ⟨g1, g2, -⟩ := ha.1 f (by simp)
  simp only [Option.getD_none] at h1 h2 h3 h4
  cases h3 with
  | cons ht _ =>
    obtain ⟨q1, q2, -⟩ := C165_create hF hc
    obtain ⟨e', j', r1, r2, r3⟩ := openRead_some.1 q2
    cases Leads.unique q1.2 r1.2
    rw [hj] at r2
    cases r2
    refine ⟨f, n, rfl, h1, h2, openRead_some.2 ⟨e, j, by rw [g2]; exact q1, by rw [g2]; exact hj, ?_⟩, h4⟩
    have := ht.1
    simp only [g1] at this
    rw [this, ← r3]
    rfl

/-- **C168 (errors).** Whatever the copy returns, the file holds a beginning of the stream, as far as it was read. -/
theorem C168_prefix (hF : w.F.Ok) (hc : create w cwd me i = some (w1, e)) (hj : w1.F e = some (.file j)) (src : Reader)
    (room fuel : Nat) {fs : List File} {written : Nat} {err : Option Err}
    (h : copys File.write src [⟨w1, j, room, []⟩] fuel = some (fs, written, err)) :
    ∃ f n bs, fs = [f] ∧ openRead f.w cwd me = some bs ∧ bs <+: total src (32 * 1024) (n + 1) ∧ written ≤ bs.length := by
  have ho := C66_copies_everything_partial File.contract src none [⟨w1, j, room, []⟩] (by simp) fuel h
  have ha := loop_all (fun f : File => f.ino = j ∧ f.w.F = w1.F ∧ ∀ k, k ≠ j → f.w.data k = w1.data k)
    (fun s p hs => File.frame w1 j s p hs) src _ fuel 0 [⟨w1, j, room, []⟩] 0 (by simp) h
  obtain ⟨f, rfl⟩ : ∃ f, fs = [f] := List.length_eq_one_iff.1 ha.2
  obtain ⟨g1, g2, -⟩ := ha.1 f (by simp)
  obtain ⟨q1, q2, -⟩ := C165_create hF hc
  obtain ⟨e', j', r1, r2, r3⟩ := openRead_some.1 q2
  cases Leads.unique q1.2 r1.2
  rw [hj] at r2
  cases r2
  have hread : openRead f.w cwd me = some (f.w.data j) :=
    openRead_some.2 ⟨e, j, by rw [g2]; exact q1, by rw [g2]; exact hj, rfl⟩
  have whole : ∀ n, List.Forall₂ (Took (fun f : File => f.w.data f.ino) File.errs (total src (32 * 1024) (n + 1)))
      [⟨w1, j, room, []⟩] [f] → f.w.data j = total src (32 * 1024) (n + 1) := by
    intro n ht
    cases ht with
    | cons ht _ =>
      have := ht.1
      simp only [g1] at this
      rw [this, ← r3]
      rfl
  cases err with
  | none =>
    obtain ⟨n, -, -, h3, h4⟩ := ho.ok rfl
    have := whole n h3
    exact ⟨f, n, _, rfl, hread, by rw [this]; exact List.prefix_refl _, by rw [this, h4]; rfl⟩
  | some er =>
    rcases ho.fail er rfl with ⟨n, -, -, -, h3, h4⟩ | ⟨n, pre, s, post, pre', s', post', q, -, h1, h2, -, -, h5, h6, -, h7⟩
    · have := whole n h3
      exact ⟨f, n, _, rfl, hread, by rw [this]; exact List.prefix_refl _, by rw [this, h4]; rfl⟩
    · have a1 : pre = [] ∧ s = ⟨w1, j, room, []⟩ := by
        cases pre with
        | nil => simp at h1; exact ⟨rfl, h1.1.symm⟩
        | cons x pre => simp at h1
      have a2 : s' = f := by
        cases pre' with
        | nil => simp at h2; exact h2.1.symm
        | cons x pre' => simp at h2
      rw [a2, a1.2] at h6
      simp only [g1] at h6
      rw [← r3, List.nil_append] at h6
      refine ⟨f, n, _, rfl, hread, ?_, by rw [h6, h7]; simp⟩
      rw [h6]
      obtain ⟨t, ht⟩ := h5
      exact ⟨t, by rw [List.append_assoc, ht]; rfl⟩

theorem total_prefix (src : Reader) (b : Nat) {m n : Nat} (h : m ≤ n) : total src b m <+: total src b n := by
  induction h with
  | refl => exact List.prefix_refl _
  | step _ ih => exact ih.trans (List.prefix_append _ _)

/-- With room for the rest of the stream there is no error. -/
theorem loop_room (src : Reader) (b : Nat) {n : Nat} (hn : ∀ k < n, (src k b).err = none) (hend : (src n b).err = some .eof) :
    ∀ (fuel k : Nat) (f : File) (written : Nat), k ≤ n → n - k < fuel →
      (total src b (n + 1)).length ≤ (total src b k).length + f.room →
      ∃ f' written', loop File.write src b fuel k [f] written = some ([f'], written', none) := by
  intro fuel
  induction fuel with
  | zero => intro k f written _ h; omega
  | succ fuel ih =>
    intro k f written hk hf hr
    have h1 : (total src b (k + 1)).length = (total src b k).length + (src k b).data.length := by simp [total]
    have h2 := (total_prefix src b (show k + 1 ≤ n + 1 by omega)).length_le
    have hd : (src k b).data.length ≤ f.room := by omega
    have after : ∀ (f' : File) (wr : Nat), f.room ≤ f'.room + (src k b).data.length →
        ∃ f'' wr', (if (src k b).err.isSome then
          some ([f'], wr, if (src k b).err ≠ some .eof then (src k b).err else none)
          else loop File.write src b fuel (k + 1) [f'] wr) = some ([f''], wr', none) := by
      intro f' wr hf'
      rcases Nat.lt_or_eq_of_le hk with h3 | rfl
      · rw [hn k h3]
        exact ih (k + 1) f' wr h3 (by omega) (by omega)
      · rw [hend]
        exact ⟨f', wr, rfl⟩
    simp only [loop]
    by_cases hz : (src k b).data.length > 0
    · rw [if_pos hz]
      simp only [writeAll, File.write, if_pos hd, Option.isSome_none, Bool.false_eq_true, if_false, ne_eq, not_true_eq_false]
      exact after _ _ (by simp only; omega)
    · rw [if_neg hz]
      exact after f written (by omega)

/-- **C168 (it succeeds).** If the stream ends and there is room on the disk for it, the copy returns without error: reading the
file gives the stream. -/
theorem C168_succeeds (hF : w.F.Ok) (hc : create w cwd me i = some (w1, e)) (hj : w1.F e = some (.file j)) (src : Reader)
    {n : Nat} (hn : ∀ k < n, (src k (32 * 1024)).err = none) (hend : (src n (32 * 1024)).err = some .eof)
    {room : Nat} (hroom : (total src (32 * 1024) (n + 1)).length ≤ room) :
    ∀ fuel > n, ∃ f, copys File.write src [⟨w1, j, room, []⟩] fuel =
        some ([f], (total src (32 * 1024) (n + 1)).length, none) ∧
      openRead f.w cwd me = some (total src (32 * 1024) (n + 1)) := by
  intro fuel hf
  obtain ⟨f', wr, h⟩ := loop_room src (32 * 1024) hn hend fuel 0 ⟨w1, j, room, []⟩ 0 (by omega) (by omega)
    (by simpa [total] using hroom)
  have h' : copys File.write src [⟨w1, j, room, []⟩] fuel = some ([f'], wr, none) := h
  obtain ⟨f, m, he, h1, h2, h3, h4⟩ := C168_copy hF hc hj src room fuel h'
  cases he
  have : m = n := by
    rcases Nat.lt_trichotomy m n with g | g | g
    · rw [hn m g] at h2; cases h2
    · exact g
    · rw [h1 n g] at hend; cases hend
  subst this
  exact ⟨f', by rw [h', h4], h3⟩

/-- Without room for the stream, as much of it is written as there is room for. -/
theorem loop_full (src : Reader) (b : Nat) {m room : Nat} (hm : ∀ k < m, (src k b).err = none)
    (hr : room < (total src b (m + 1)).length) :
    ∀ (fuel k : Nat) (f : File) (written : Nat), k ≤ m → m - k < fuel → f.w.data f.ino = total src b k →
      (total src b k).length + f.room = room →
      ∃ f' written', loop File.write src b fuel k [f] written = some ([f'], written', some (.other 28)) ∧ f'.w.F = f.w.F ∧
        f'.w.data f.ino = (total src b (m + 1)).take room := by
  intro fuel
  induction fuel with
  | zero => intro k f written _ h; omega
  | succ fuel ih =>
    intro k f written hk hf hc hs
    have h1 : (total src b (k + 1)).length = (total src b k).length + (src k b).data.length := by simp [total]
    simp only [loop]
    by_cases hd : (src k b).data.length ≤ f.room
    · have hlt : k < m := by
        rcases Nat.lt_or_eq_of_le hk with h3 | rfl
        · exact h3
        · omega
      by_cases hz : (src k b).data.length > 0
      · rw [if_pos hz]
        simp only [writeAll, File.write, if_pos hd, Option.isSome_none, Bool.false_eq_true, if_false, ne_eq, not_true_eq_false,
          hm k hlt]
        obtain ⟨f', wr, g1, g2, g3⟩ := ih (k + 1)
          { f with w := f.w.write f.ino (f.w.data f.ino ++ (src k b).data), room := f.room - (src k b).data.length }
          (if (src k b).data.length > 0 then written + (src k b).data.length else written) hlt (by omega)
          (by simp only [Store.write, if_true]; rw [hc]; rfl) (by simp only; omega)
        exact ⟨f', wr, g1, g2, g3⟩
      · rw [if_neg hz]
        have he : (src k b).data = [] := by simpa using hz
        simp only [hm k hlt, Option.isSome_none, Bool.false_eq_true, if_false]
        exact ih (k + 1) f written hlt (by omega) (by rw [hc]; simp [total, he]) (by omega)
    · rw [if_pos (by omega)]
      simp only [writeAll, File.write, if_neg hd, Option.isSome_some, if_true]
      refine ⟨_, _, rfl, rfl, ?_⟩
      simp only [Store.write, if_true]
      obtain ⟨t, ht⟩ := total_prefix src b (show k + 1 ≤ m + 1 by omega)
      rw [← ht, List.take_append_of_le_length (by omega), hc, ← hs]
      show _ = List.take _ (total src b k ++ (src k b).data)
      rw [List.take_length_add_append]

/-- **C168 (the disk is full).** If the stream is longer than the room on the disk, the copy returns the error of the disk, and the
file holds as much of the stream as there was room for. -/
theorem C168_full (hF : w.F.Ok) (hc : create w cwd me i = some (w1, e)) (hj : w1.F e = some (.file j)) (src : Reader)
    {m : Nat} (hm : ∀ k < m, (src k (32 * 1024)).err = none) {room : Nat}
    (hroom : room < (total src (32 * 1024) (m + 1)).length) :
    ∀ fuel > m, ∃ f written, copys File.write src [⟨w1, j, room, []⟩] fuel = some ([f], written, some (.other 28)) ∧
      openRead f.w cwd me = some ((total src (32 * 1024) (m + 1)).take room) := by
  intro fuel hf
  obtain ⟨q1, q2, -⟩ := C165_create hF hc
  obtain ⟨e', j', r1, r2, r3⟩ := openRead_some.1 q2
  cases Leads.unique q1.2 r1.2
  rw [hj] at r2
  cases r2
  obtain ⟨f, wr, h, g1, g2⟩ := loop_full src (32 * 1024) hm hroom fuel 0 ⟨w1, j, room, []⟩ 0 (by omega) (by omega)
    r3.symm (by simp [total])
  exact ⟨f, wr, h, openRead_some.2 ⟨e, j, by rw [g1]; exact q1, by rw [g1]; exact hj, g2.symm⟩⟩

/-- **C168 (other files).** Whatever the copy returns, no place changes, and no content but that of the file. -/
theorem C168_frame (src : Reader) (room fuel : Nat) {fs : List File} {written : Nat} {err : Option Err}
    (h : copys File.write src [⟨w1, j, room, []⟩] fuel = some (fs, written, err)) :
    ∀ f ∈ fs, f.w.F = w1.F ∧ ∀ k, k ≠ j → f.w.data k = w1.data k := fun f hf =>
  ((loop_all (fun f : File => f.ino = j ∧ f.w.F = w1.F ∧ ∀ k, k ≠ j → f.w.data k = w1.data k)
    (fun s p hs => File.frame w1 j s p hs) src _ fuel 0 [⟨w1, j, room, []⟩] 0 (by simp) h).1 f hf).2

/-- `a/c` is created again, and five bytes copied into it. -/
example : ∃ f, copys File.write demoSrc [⟨demoStore.write 1 [], 1, 9, []⟩] 5 = some ([f], 5, none) ∧
    openRead f.w [] ['a', '/', 'c'] = some [1#8, 2#8, 3#8, 4#8, 5#8] := by
  have h : copys File.write demoSrc [⟨demoStore.write 1 [], 1, 9, []⟩] 5 = some ([_], 5, none) := rfl
  refine ⟨_, h, ?_⟩
  exact openRead_some.2 ⟨_, 1, demo_file, by decide, rfl⟩

example := C168_copy (w := demoStore) (i := 5) demo_ok (create_exists demo_file (by decide)) (by decide) demoSrc 9 5
  (show copys File.write demoSrc [⟨demoStore.write 1 [], 1, 9, []⟩] 5 = some ([_], 5, none) from rfl)

example := C168_succeeds (w := demoStore) (i := 5) (j := 1) (n := 1) (room := 5) demo_ok
  (create_exists (j := 1) demo_file (by decide)) (by decide)
  demoSrc (fun k hk => by rw [Nat.lt_one_iff.1 hk]; rfl) rfl (by decide)

example := C168_full (w := demoStore) (i := 5) (j := 1) (m := 1) (room := 4) demo_ok
  (create_exists (j := 1) demo_file (by decide)) (by decide)
  demoSrc (fun k hk => by rw [Nat.lt_one_iff.1 hk]; rfl) (by decide)

end Verif.FsLinks
