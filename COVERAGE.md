# From the code to the model

For every function of `/repo` outside of tests: the definitions under `lean/Verif` whose comments cite lines of it, the closest first. Generated by `tools/gen_coverage.py`.

## src/arc/arc_slice.rs

| lines | function | definitions |
|---|---|---|
| 81-89 | `ArcSliceData<T>::from_boxed_slice` | `Arc.pcStep` |
| 91-93 | `ArcSliceData<T>::from_data_parts` | `Arc.Conf.blocks`, `Arc.Conf.recordsMade`, `Arc.Arena.root` |
| 95-108 | `ArcSliceData<T>::with_data_and_parent` | `Arc.Conf.recordsMade`, `Arc.Arena.root`, `Arc.Conf.blocks`, `Arc.Conf.boxesMade`, `Arc.Arena.newBox` |
| 110-119 | `ArcSliceData<T>::clone_left` | `RawSlice.cloneLeft`, `Arc.pcBlocks`, `Arc.most`, `Arc.Pc` |
| 121-130 | `ArcSliceData<T>::clone_right` | `RawSlice.cloneRight`, `Arc.pcBlocks`, `Arc.most`, `Arc.Pc` |
| 132-175 | `ArcSliceData<T>::clone_child` | `Arc.Conf.recordsMade`, `Arc.pcHead`, `Arc.Call.discards`, `Arc.pcAcc`, `Arc.Conf.blocks` and 7 more |
| 177-179 | `ArcSliceData<T>::take_left` | `Arc.kidsFg` |
| 181-183 | `ArcSliceData<T>::take_right` | `Arc.kidsFg` |
| 185-192 | `ArcSliceData<T>::take_child` | `Arc.dropAcc`, `Arc.kidsFg` |
| 194-196 | `ArcSliceData<T>::left_sub` | `RawSlice.leftSub`, `Arc.Span`, `Arc.ownSpans` |
| 198-205 | `ArcSliceData<T>::right_sub` | `RawSlice.rightSub`, `Arc.Span`, `Arc.ownSpans` |
| 210-218 | `ArcSliceData<T>::into_mut` | `Arc.Pc` |
| 220-227 | `ArcSliceData<T>::forget_items` | `Arc.Pc.unwrapped`, `Arc.Pc.todo`, `Arc.Fg`, `Arc.Pc`, `Arc.kidsFg` and 2 more |
| 231-253 | `Drop for ArcSliceData<T>::drop` | `Arc.Call.destructors`, `Arc.ataskStep`, `Arc.ownSpans`, `Arc.dropAcc`, `Arc.ataskAcc` and 5 more |
| 280-282 | `Deref for ArcSliceData<T>::deref` | `Arc.Conf.range`, `Arc.handleObj` |
| 286-317 | `DataGuard::guard` | `Arc.Pc.callers`, `Arc.cleanup`, `Arc.WConf.there`, `Arc.Pc.found`, `Arc.Conf.guardsMade` and 15 more |
| 321-324 | `ArcSlice<T>::from_data` | `Arc.cleanup`, `Arc.Says`, `Arc.Res`, `Arc.Op`, `Arc.Conf.start` and 1 more |
| 326-328 | `ArcSlice<T>::from_boxed_slice` | `Arc.Pc`, `Arc.Conf.plain`, `Arc.Says`, `Arc.Res`, `Arc.Op` and 2 more |
| 330-332 | `ArcSlice<T>::from_vec` | `Arc.Says`, `Arc.Res`, `Arc.Op`, `Arc.Conf.start`, `Arc.VConf.Arc.Op.arg` |
| 334-337 | `ArcSlice<T>::clone_left` | `Arc.Pc`, `Arc.Conf.borrowed`, `Arc.Conf.shared`, `Arc.Op.byRef`, `Arc.pcBlocks` and 5 more |
| 339-342 | `ArcSlice<T>::clone_right` | `Arc.Pc`, `Arc.Conf.borrowed`, `Arc.Op.byRef`, `Arc.pcBlocks`, `Arc.Prog.one` and 4 more |
| 344-349 | `ArcSlice<T>::split_off_left` | `Arc.Seq.Does`, `RawSlice.splitOffLeft`, `Arc.Prog.drop`, `Arc.Op.guarding`, `Arc.splitOffK` and 4 more |
| 351-356 | `ArcSlice<T>::split_off_right` | `Arc.Seq.Does`, `RawSlice.splitOffRight`, `Arc.Op.guarding`, `Arc.splitOffK`, `Arc.Res` and 3 more |
| 358-360 | `ArcSlice<T>::split_into_parts` | `Arc.Life`, `Arc.Res`, `Arc.Op`, `Arc.Conf.start`, `Arc.VConf.Arc.Op.arg` |
| 362-387 | `ArcSlice<T>::get_mut` | `Arc.Conf.write`, `Arc.VConf.write`, `Arc.Ords`, `Arc.pcBlocks`, `Arc.Body` and 14 more |
| 389-405 | `ArcSlice<T>::into_mut` | `Arc.Pc`, `Arc.pcBlocks`, `Arc.Conf.taking`, `Arc.Call.cloneLatch`, `Arc.Arena.holds` and 7 more |
| 407-410 | `ArcSlice<T>::downgrade` | `Arc.Pc`, `Arc.Conf.borrowed`, `Arc.Op.byRef`, `Arc.pcBlocks`, `Arc.Says` and 4 more |
| 416-418 | `ArcSlice<T>::clone_child_gate` | `Arc.Arena.getG`, `Arc.Res`, `Arc.Op`, `Arc.Conf.start`, `Arc.VConf.Arc.Op.arg` |
| 420-422 | `ArcSlice<T>::downgrade_gate` | `Arc.Arena.getG`, `Arc.Res`, `Arc.Op`, `Arc.Conf.start`, `Arc.VConf.Arc.Op.arg` |
| 426-431 | `Clone for ArcSlice<T>::clone` | `Arc.Says`, `Arc.Pc`, `Arc.Gives`, `Arc.Arena.incG`, `Arc.Conf.borrowed` and 6 more |
| 437-439 | `Deref for ArcSlice<T>::deref` | `Arc.Conf.range`, `Arc.handleObj`, `Arc.VConf.read`, `Arc.Body`, `Arc.Conf.Reads` and 4 more |
| 443-445 | `From<Box<[T]>> for ArcSlice<T>::from` | `Arc.Res`, `Arc.Op`, `Arc.Conf.start`, `Arc.VConf.Arc.Op.arg` |
| 449-451 | `From<Vec<T>> for ArcSlice<T>::from` | `Arc.Res`, `Arc.Op`, `Arc.Conf.start`, `Arc.VConf.Arc.Op.arg` |
| 455-457 | `From<ArcSliceMut<T>> for ArcSlice<T>::from` | `Arc.Res`, `Arc.Op`, `Arc.Conf.start`, `Arc.VConf.Arc.Op.arg` |
| 469-471 | `WeakSlice<T>::new` | `Arc.Body`, `Arc.Conf.plain`, `Arc.Seq.Does`, `Arc.Res`, `Arc.Op` and 2 more |
| 473-477 | `WeakSlice<T>::upgrade` | `Arc.Pc`, `Arc.Conf.borrowed`, `Arc.Ords`, `Arc.upAcc`, `Arc.Op.byRef` and 6 more |
| 481-483 | `Clone for WeakSlice<T>::clone` | `Arc.Pc`, `Arc.Conf.borrowed`, `Arc.Op.byRef`, `Arc.pcBlocks`, `Arc.Says` and 4 more |
| 488-488 | `BinarySplitOff for ArcSlice<T>::split_off_left` | `Arc.splitOffK` |
| 490-490 | `BinarySplitOff for ArcSlice<T>::split_off_right` | `Arc.splitOffK` |
| 497-499 | `ArcSliceParts<T>::new` | `Arc.Life` |
| 503-505 | `ArcSliceParts<T>::as_slice` | `Arc.nextPart` |
| 510-510 | `ExactSizeIterator for ArcSliceParts<T>::len` | `Arc.nextPart` |
| 517-517 | `Iterator for ArcSliceParts<T>::next` | `Arc.nextPart` |
| 524-524 | `DoubleEndedIterator for ArcSliceParts<T>::next_back` | `Arc.nextPart` |
| 531-533 | `Clone for ArcSliceParts<T>::clone` | `Arc.cloneParts` |

## src/arc/arc_slice_mut.rs

| lines | function | definitions |
|---|---|---|
| 44-47 | `ArcSliceMut<T>::from_boxed_slice` | `Arc.Pc`, `Arc.cloneMut`, `Arc.Says`, `Arc.Op`, `Arc.Conf.start` |
| 49-51 | `ArcSliceMut<T>::from_vec` | `Arc.cloneMut`, `Arc.Says`, `Arc.Op`, `Arc.Conf.start` |
| 53-55 | `ArcSliceMut<T>::from_raw_parts` | `Arc.Op`, `Arc.Conf.start` |
| 61-65 | `ArcSliceMut<T>::split_off_left` | `Arc.Pc`, `Arc.Op`, `Arc.Conf.start` |
| 67-71 | `ArcSliceMut<T>::split_off_right` | `Arc.Pc`, `Arc.Op`, `Arc.Conf.start` |
| 73-77 | `ArcSliceMut<T>::split_into_parts` | `Arc.intoPartsMut`, `Arc.Seq.Does`, `Arc.Op`, `Arc.Conf.start` |
| 79-84 | `ArcSliceMut<T>::into_immut` | `Arc.Pc`, `Arc.Gives`, `Arc.Op`, `Arc.Conf.start` |
| 94-94 | `Deref for ArcSliceMut<T>::deref` | `Arc.Conf.range`, `Arc.VConf.read`, `Arc.Body`, `Arc.Conf.Reads`, `Arc.Op` and 1 more |
| 99-99 | `DerefMut for ArcSliceMut<T>::deref_mut` | `Arc.Conf.write`, `Arc.Conf.writable`, `Arc.VConf.write`, `Arc.Body`, `Arc.Op` and 1 more |
| 103-105 | `From<Box<[T]>> for ArcSliceMut<T>::from` | `Arc.Op`, `Arc.Conf.start` |
| 109-111 | `From<Vec<T>> for ArcSliceMut<T>::from` | `Arc.cloneMut`, `Arc.Op`, `Arc.Conf.start` |
| 117-119 | `TryFrom<ArcSlice<T>> for ArcSliceMut<T>::try_from` | `Arc.Op`, `Arc.Conf.start` |
| 127-129 | `Clone for ArcSliceMut<T>::clone` | `Arc.cloneMut`, `Arc.Seq.Does`, `Arc.Op`, `Arc.Conf.start` |
| 137-140 | `IntoIterator for ArcSliceMut<T>::into_iter` | `Arc.Op`, `Arc.Conf.start` |
| 152-152 | `ArcSliceMutIter<T>::as_slice` | `Arc.Conf.Reads`, `Arc.Op`, `Arc.Conf.start` |
| 154-154 | `ArcSliceMutIter<T>::as_mut_slice` | `Arc.Op`, `Arc.Conf.start` |
| 159-169 | `ArcSliceMutIter<T>::split_off_from` | `Arc.Seq.Does`, `Arc.Pc`, `Arc.Op`, `Arc.Conf.start` |
| 171-181 | `ArcSliceMutIter<T>::split_off_to` | `Arc.Seq.Does`, `Arc.Pc`, `Arc.Op`, `Arc.Conf.start` |
| 186-186 | `ExactSizeIterator for ArcSliceMutIter<T>::len` | `Arc.Op`, `Arc.Conf.start` |
| 192-197 | `Iterator for ArcSliceMutIter<T>::next` | `Arc.nextItem`, `Arc.touched`, `Arc.Op`, `Arc.Conf.start` |
| 204-209 | `DoubleEndedIterator for ArcSliceMutIter<T>::next_back` | `Arc.nextItem`, `Arc.touched`, `Arc.Op`, `Arc.Conf.start` |
| 218-218 | `ArcSliceMutParts<T>::as_slice` | `Arc.Conf.Reads`, `Arc.Seq.agrees` |
| 220-220 | `ArcSliceMutParts<T>::as_mut_slice` | `Arc.Seq.agrees` |
| 225-225 | `ExactSizeIterator for ArcSliceMutParts<T>::len` | `Arc.Seq.agrees` |
| 231-242 | `Iterator for ArcSliceMutParts<T>::next` | `Arc.nextPartMut`, `Arc.Seq.Does`, `Arc.Pc` |
| 249-260 | `DoubleEndedIterator for ArcSliceMutParts<T>::next_back` | `Arc.nextPartMut`, `Arc.Seq.Does`, `Arc.Pc` |

## src/internal/bin_parts_iter.rs

| lines | function | definitions |
|---|---|---|
| 14-14 | `BinarySplitOff::split_off_left` | `Rc.PM` |
| 15-15 | `BinarySplitOff::split_off_right` | `Rc.PM` |
| 99-122 | `BinaryPartsIter<S>::new` | `Fault`, `BinaryPartsIter.new`, `SliceItemsParts.oddLoop`, `Deque.pushFront` |
| 125-147 | `BinaryPartsIter<S>::as_slice` | `BinaryPartsIter.asSlice`, `Rc.place` |
| 152-154 | `ExactSizeIterator for BinaryPartsIter<S>::len` | `BinaryPartsIter.len` |
| 245-266 | `Iterator for BinaryPartsIter<S>::next` | `BinaryPartsIter.next`, `BinaryPartsIter.frontLoop`, `Deque`, `Deque.pushFront`, `shrinkLoop` |
| 273-295 | `DoubleEndedIterator for BinaryPartsIter<S>::next_back` | `BinaryPartsIter.nextBack`, `BinaryPartsIter.backLoop`, `Deque`, `Deque.pushBack` |
| 301-311 | `DoubleEndedIterator for BinaryPartsIter<S>::greatest_power_of_2_factor` | `greatestPowerOf2Factor` |

## src/internal/gate.rs

| lines | function | definitions |
|---|---|---|
| 11-13 | `Gate::new` | `Arc.GuardV` |
| 15-17 | `Gate::wait_till_open` | `Arc.Pc` |
| 19-25 | `Gate::try_close` | `Arc.Pc`, `Arc.pcAcc` |
| 29-31 | `Drop for Latch<'a>::drop` | `Arc.Pc` |

## src/internal/macros/borrow.rs

| lines | function | definitions |
|---|---|---|
| 5-5 | `core::convert::AsRef<[T]> for $struct<T>::as_ref` | `Rc.deref` |
| 10-10 | `core::borrow::Borrow<[T]> for $struct<T>::borrow` | `Rc.deref` |
| 19-19 | `core::convert::AsMut<[T]> for $struct<T>::as_mut` | `Rc.deref` |
| 24-24 | `core::borrow::BorrowMut<[T]> for $struct<T>::borrow_mut` | `Rc.deref` |

## src/internal/macros/cmp.rs

| lines | function | definitions |
|---|---|---|
| 5-5 | `core::cmp::PartialEq<$struct<B>> for $struct<A>::eq` | `Rc.sliceEq`, `Rc.eqHandles` |
| 7-7 | `core::cmp::PartialEq<$struct<B>> for $struct<A>::ne` | `Rc.neHandles` |
| 13-15 | `core::cmp::PartialOrd for $struct<T>::partial_cmp` | `Rc.partialCmpHandles`, `Rc.slicePartialCmp` |
| 19-21 | `core::cmp::Ord for $struct<T>::cmp` | `Rc.cmpHandles`, `Rc.sliceCmp` |

## src/internal/macros/fmt.rs

| lines | function | definitions |
|---|---|---|
| 4-6 | `core::fmt::Debug for $struct<T>::fmt` | `Rc.debugHandle`, `Rc.sliceDebug` |
| 14-18 | `core::fmt::Debug for $struct<T>::fmt` | `Rc.debugHandle` |
| 26-31 | `core::fmt::Debug for $struct<T>::fmt` | `Rc.debugHandle` |

## src/internal/macros/hash.rs

| lines | function | definitions |
|---|---|---|
| 4-6 | `core::hash::Hash for $struct<T>::hash` | `Rc.hashHandle`, `Rc.sliceHash` |

## src/internal/macros/iter.rs

| lines | function | definitions |
|---|---|---|
| 4-6 | `core::iter::FromIterator<T> for $struct<T>::from_iter` | `Arc.cloneMut` |
| 14-16 | `core::iter::FromIterator<T> for $struct<T>::size_hint` | `exactSizeHint` |
| 23-23 | `core::iter::FromIterator<T> for $struct<T>::count` | `exactCount` |

## src/internal/slice_model/mod.rs

| lines | function | definitions |
|---|---|---|
| 28-39 | `split_alloc_from_items` | `Ctx.Valid`, `Rc.Heap.accessible` |

## src/internal/slice_model/slice_alloc.rs

| lines | function | definitions |
|---|---|---|
| 20-22 | `SliceAlloc<T>::new` | `Rc.rcFromBox` |
| 28-30 | `Drop for SliceAlloc<T>::drop` | `Rc.dropStrong` |

## src/internal/slice_model/slice_items.rs

| lines | function | definitions |
|---|---|---|
| 42-44 | `SliceItems<T>::new` | `SliceItems` |
| 46-51 | `SliceItems<T>::into_raw_parts` | `SliceItems` |
| 53-59 | `SliceItems<T>::split_off_left` | `SliceItems.splitOffLeft` |
| 61-66 | `SliceItems<T>::split_off_right` | `SliceItems.splitOffRight` |
| 68-70 | `SliceItems<T>::left_len` | `SliceItems.leftLen` |
| 72-74 | `SliceItems<T>::right_len` | `SliceItems.rightLen`, `subU` |
| 76-82 | `SliceItems<T>::mid` | `SliceItems.mid`, `Ctx.ptrAdd` |
| 84-86 | `SliceItems<T>::split_into_parts` | `SliceItemsParts.new` |
| 90-96 | `Drop for SliceItems<T>::drop` | `Rc.Unwinds` |
| 106-108 | `Deref for SliceItems<T>::deref` | `SliceItems` |
| 112-114 | `DerefMut for SliceItems<T>::deref_mut` | `SliceItems` |
| 122-122 | `IntoIterator for SliceItems<T>::into_iter` | `SliceItemsIter.new` |
| 126-130 | `SliceItemsIter<T>::new` | `SliceItemsIter.new` |
| 132-134 | `SliceItemsIter<T>::as_slice` | `SliceItemsIter.asSlice` |
| 136-138 | `SliceItemsIter<T>::as_mut_slice` | `SliceItemsIter.asSlice` |
| 140-149 | `SliceItemsIter<T>::split_off_from` | `SliceItemsIter.splitOffFrom`, `Fault`, `SliceItemsIter.poolStep` |
| 151-160 | `SliceItemsIter<T>::split_off_to` | `SliceItemsIter.splitOffTo`, `Fault`, `SliceItemsIter.poolStep` |
| 170-170 | `ExactSizeIterator for SliceItemsIter<T>::len` | `SliceItemsIter.len` |
| 176-186 | `Iterator for SliceItemsIter<T>::next` | `SliceItemsIter.next`, `Rc.Heap.setSlot` |
| 193-202 | `DoubleEndedIterator for SliceItemsIter<T>::next_back` | `SliceItemsIter.nextBack` |
| 208-211 | `Drop for SliceItemsIter<T>::drop` | `Rc.Unwinds` |
| 215-231 | `SliceItemsParts<T>::new` | `SliceItemsParts.new`, `Fault`, `SliceItemsParts.oddLoop` |
| 233-236 | `SliceItemsParts<T>::as_slice` | `SliceItemsParts.asSlice` |
| 238-241 | `SliceItemsParts<T>::as_mut_slice` | `SliceItemsParts.asSlice`, `Arc.Seq.agrees`, `RawSlice`, `Rc.partsReg` |
| 243-278 | `SliceItemsParts<T>::as_raw_slice_parts` | `SliceItemsParts.asSlice`, `Arc.Seq.agrees`, `RawSlice`, `Rc.partsReg`, `SliceItemsParts.startLoop` and 1 more |
| 288-290 | `ExactSizeIterator for SliceItemsParts<T>::len` | `SliceItemsParts.len` |
| 296-320 | `Iterator for SliceItemsParts<T>::next` | `SliceItemsParts.next`, `SliceItemsParts.nextLoop`, `SliceItemsParts.rightPtr` |
| 327-353 | `DoubleEndedIterator for SliceItemsParts<T>::next_back` | `SliceItemsParts.nextBack`, `SliceItemsParts.nextBackLoop`, `SliceItemsParts.rightPtr` |
| 359-361 | `Drop for SliceItemsParts<T>::drop` | `SliceItemsParts.asSlice`, `Rc.Unwinds` |
| 393-399 | `PtrOrIdx<T>::as_ptr` | `PtrOrIdxRange.asPtr` |
| 402-404 | `PtrOrIdx<T>::as_mut_ptr` | `PtrOrIdxRange.asPtr` |
| 407-413 | `PtrOrIdx<T>::read` | `SliceItemsIter.next` |
| 416-422 | `PtrOrIdx<T>::add` | `addU`, `Ctx.ptrAdd`, `PtrOrIdxRange.add` |
| 425-431 | `PtrOrIdx<T>::sub` | `Ctx.ptrSub`, `PtrOrIdxRange.sub` |
| 437-437 | `Clone for PtrOrIdx<T>::clone` | `PtrOrIdxRange` |
| 448-460 | `PtrOrIdxRange<T>::with_ptr_and_len` | `PtrOrIdxRange.withPtrAndLen` |
| 463-469 | `PtrOrIdxRange<T>::len` | `subU`, `PtrOrIdxRange.len` |
| 472-474 | `PtrOrIdxRange<T>::as_slice` | `SliceItemsIter.asSlice` |
| 477-479 | `PtrOrIdxRange<T>::as_mut_slice` | `SliceItemsIter.asSlice` |
| 485-485 | `Clone for PtrOrIdxRange<T>::clone` | `PtrOrIdxRange` |

## src/rc/rc_slice.rs

| lines | function | definitions |
|---|---|---|
| 93-101 | `RcSliceData<T>::from_boxed_slice` | `Rc.newBuf`, `Rc.rcFromBox`, `Rc.Heap`, `Rc.Skel`, `Rc.Heap.rcNew` |
| 103-113 | `RcSliceData<T>::from_data_parts` | `Rc.rcFromParts`, `Rc.noKids` |
| 115-120 | `RcSliceData<T>::clone_left` | `Rc.dataCloneChild` |
| 122-127 | `RcSliceData<T>::clone_right` | `Rc.dataCloneChild` |
| 129-145 | `RcSliceData<T>::clone_child` | `Rc.dataCloneChild`, `Rc.DataV.setKid`, `Rc.Skel`, `Rc.Heap.rcNew`, `Rc.Heap.setNode` and 2 more |
| 147-149 | `RcSliceData<T>::take_left` | `Rc.forgetKid`, `Rc.dropStrong` |
| 151-153 | `RcSliceData<T>::take_right` | `Rc.forgetKid`, `Rc.dropStrong` |
| 155-157 | `RcSliceData<T>::take_child` | `Rc.forgetKid`, `Rc.dropStrong` |
| 159-161 | `RcSliceData<T>::left_sub` | `RawSlice.leftSub`, `Rc.DataV.subOff`, `Rc.DataV.subLen` |
| 163-170 | `RcSliceData<T>::right_sub` | `RawSlice.rightSub`, `Rc.DataV.subOff`, `Rc.DataV.subLen` |
| 175-183 | `RcSliceData<T>::into_mut` | `Rc.intoMut` |
| 185-192 | `RcSliceData<T>::forget_items` | `Rc.Config.Inside`, `Rc.forgetKid`, `Rc.forgetItems`, `Rc.Heap.kill` |
| 196-218 | `Drop for RcSliceData<T>::drop` | `Rc.Config.Inside`, `Rc.dropStrong`, `Rc.taskStep`, `Rc.Inside`, `Rc.Heap.lose` and 6 more |
| 224-226 | `Deref for RcSliceData<T>::deref` | `Rc.readRange`, `Rc.handleRange`, `Rc.place` |
| 252-267 | `IntoMutGuard::new` | `Rc.imgNew`, `Rc.noKids`, `Rc.Skel`, `Rc.Heap.rcNew`, `Rc.Heap.setNode` and 1 more |
| 292-299 | `GetMutGuard::new` | `Rc.noKids` |
| 301-327 | `GetMutGuard::ensure_into_mut_guard` | `Rc.Config.Inside`, `Rc.ensureImg`, `Rc.Heap.decShared`, `Rc.noKids`, `Rc.Skel` and 6 more |
| 334-336 | `RcSlice<T>::from_unique_data` | `Rc.rcFromParts` |
| 338-340 | `RcSlice<T>::from_boxed_slice` | `Rc.Skel`, `Rc.Heap.rcNew`, `Rc.rcFromBox` |
| 342-344 | `RcSlice<T>::from_vec` | `Rc.rcFromBox` |
| 346-354 | `RcSlice<T>::clone_left` | `RawSlice.cloneLeft`, `Rc.sameNode`, `Rc.rcCloneSide` |
| 356-364 | `RcSlice<T>::clone_right` | `RawSlice.cloneRight`, `Rc.sameNode`, `Rc.rcCloneSide` |
| 366-371 | `RcSlice<T>::split_off_left` | `RawSlice.splitOffLeft`, `Rc.State.put`, `Rc.exec` |
| 373-378 | `RcSlice<T>::split_off_right` | `RawSlice.splitOffRight`, `Rc.exec` |
| 380-382 | `RcSlice<T>::split_into_parts` | `Rc.POp`, `Rc.PObs`, `Rc.pcall` |
| 384-403 | `RcSlice<T>::get_mut` | `Rc.getMutOk`, `Rc.writeItem` |
| 405-419 | `RcSlice<T>::into_mut` | `Rc.intoMut`, `Rc.Heap.kill` |
| 421-423 | `RcSlice<T>::downgrade` | `Rc.downgrade`, `Rc.Heap.incS`, `Rc.Heap.incW` |
| 431-436 | `Clone for RcSlice<T>::clone` | `Rc.rcClone`, `Rc.Heap.incS` |
| 442-444 | `Deref for RcSlice<T>::deref` | `Rc.deref` |
| 448-450 | `From<Box<[T]>> for RcSlice<T>::from` | `Rc.rcFromBox` |
| 454-456 | `From<Vec<T>> for RcSlice<T>::from` | `Rc.rcFromBox` |
| 460-462 | `From<RcSliceMut<T>> for RcSlice<T>::from` | `Rc.exec` |
| 474-476 | `WeakSlice<T>::new` | `Rc.weakNew`, `Rc.Skel`, `Rc.Heap.rcNew` |
| 478-502 | `WeakSlice<T>::upgrade` | `Rc.upgradeWeak`, `Rc.Heap.upgrade` |
| 506-511 | `Clone for WeakSlice<T>::clone` | `Rc.weakClone`, `Rc.Heap.incS`, `Rc.Heap.cloneW` |
| 516-516 | `BinarySplitOff for RcSlice<T>::split_off_left` | `Rc.splitOffK` |
| 518-518 | `BinarySplitOff for RcSlice<T>::split_off_right` | `Rc.splitOffK` |
| 525-527 | `RcSliceParts<T>::new` | `Rc.pcall`, `Rc.POp`, `Rc.PObs` |
| 531-533 | `RcSliceParts<T>::as_slice` | `Rc.iterRange`, `Rc.POp`, `Rc.PObs` |
| 538-538 | `ExactSizeIterator for RcSliceParts<T>::len` | `Rc.pcall`, `Rc.POp`, `Rc.PObs` |
| 545-545 | `Iterator for RcSliceParts<T>::next` | `Rc.pcall`, `Rc.POp`, `Rc.PObs` |
| 552-552 | `DoubleEndedIterator for RcSliceParts<T>::next_back` | `Rc.pcall`, `Rc.POp`, `Rc.PObs` |
| 559-561 | `Clone for RcSliceParts<T>::clone` | `Rc.cloneAll`, `Rc.pcall`, `Rc.POp`, `Rc.PObs` |

## src/rc/rc_slice_mut.rs

| lines | function | definitions |
|---|---|---|
| 47-50 | `RcSliceMut<T>::from_boxed_slice` | `Rc.newBuf`, `Rc.mutFromBox` |
| 52-54 | `RcSliceMut<T>::from_vec` | `Rc.mutFromBox` |
| 56-58 | `RcSliceMut<T>::from_raw_parts` | `Rc.Reg` |
| 78-82 | `RcSliceMut<T>::split_off_left` | `Rc.Heap.incSOpt`, `Rc.regSplitOff` |
| 84-88 | `RcSliceMut<T>::split_off_right` | `Rc.Heap.incSOpt`, `Rc.regSplitOff` |
| 90-94 | `RcSliceMut<T>::split_into_parts` | `Rc.exec` |
| 96-101 | `RcSliceMut<T>::into_immut` | `Rc.exec` |
| 110-110 | `Deref for RcSliceMut<T>::deref` | `Rc.readRange`, `Rc.handleRange`, `Rc.deref` |
| 115-115 | `DerefMut for RcSliceMut<T>::deref_mut` | `Rc.writeItem`, `Rc.deref` |
| 119-121 | `From<Box<[T]>> for RcSliceMut<T>::from` | `Rc.mutFromBox` |
| 125-127 | `From<Vec<T>> for RcSliceMut<T>::from` | `Rc.mutFromBox` |
| 133-135 | `TryFrom<RcSlice<T>> for RcSliceMut<T>::try_from` | `Rc.exec` |
| 143-145 | `Clone for RcSliceMut<T>::clone` | `Rc.exec` |
| 153-156 | `IntoIterator for RcSliceMut<T>::into_iter` | `Rc.exec` |
| 168-168 | `RcSliceMutIter<T>::as_slice` | `Rc.handleRange`, `Rc.deref` |
| 170-170 | `RcSliceMutIter<T>::as_mut_slice` | `Rc.handleRange` |
| 178-188 | `RcSliceMutIter<T>::split_off_from` | `Rc.splitAlloc`, `Rc.iterSplit` |
| 190-200 | `RcSliceMutIter<T>::split_off_to` | `Rc.splitAlloc`, `Rc.iterSplit` |
| 205-205 | `ExactSizeIterator for RcSliceMutIter<T>::len` | `Rc.handleRange` |
| 211-216 | `Iterator for RcSliceMutIter<T>::next` | `Rc.iterNext` |
| 223-228 | `DoubleEndedIterator for RcSliceMutIter<T>::next_back` | `Rc.iterNext` |
| 237-237 | `RcSliceMutParts<T>::as_slice` | `Rc.handleRange`, `Rc.deref` |
| 239-239 | `RcSliceMutParts<T>::as_mut_slice` | `Rc.handleRange` |
| 244-244 | `ExactSizeIterator for RcSliceMutParts<T>::len` | `Rc.partsNext` |
| 250-261 | `Iterator for RcSliceMutParts<T>::next` | `Rc.splitAlloc`, `Rc.partsNext` |
| 268-279 | `DoubleEndedIterator for RcSliceMutParts<T>::next_back` | `Rc.splitAlloc`, `Rc.partsNext` |
