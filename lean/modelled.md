
## What is modelled

The files of `/repo` each module cites, with the lines its definitions model. Functions of these files that are not cited are not modelled; files that are not listed are not modelled at all.

* `Verif/Apps/Boxml.lean`: skeletons/boxml/boxml-run.cc 54-376, 56-62, 74-115, 168-221, 223-290; skeletons/boxml/boxml-data.cc 324-366, 324-496, 401-423, 425-440, 459-496, 622-676, 629-672, 656; skeletons/boxml/boxml.h 200; skeletons/boxml/containers.h 183-198, 288-345, 353-400
* `Verif/Apps/Comd.lean`: skeletons/CoMD/src/decomposition.c 20, 26-31, 57-66; skeletons/CoMD/src/linkCells.c 97, 99-101, 103, 204-245, 204-251, 402-474; skeletons/CoMD/src/haloExchange.c 48-50, 150-155, 163-168, 215-220, 224-229, 249-253, 262-267, 281-310, 283, 284, 300-301, 331-355, 349-352, 461-501, 510-550, 558-582, 590-615; skeletons/CoMD/src/parallel.c 93-110
* `Verif/Apps/ComdHalo.lean`: skeletons/CoMD/src/haloExchange.c 353
* `Verif/Apps/ComdProps.lean`: skeletons/CoMD/src/linkCells.h 10; skeletons/CoMD/src/linkCells.c 109
* `Verif/Apps/Fft.lean`: sstmac/skeletons/fft/fft.cc 66-98, 100-103, 106, 107, 108, 126-136, 126-165; sstmac/skeletons/offered_load/main.cc 125-131, 168
* `Verif/Apps/FftProps.lean`: sstmac/skeletons/fft/fft.cc 53
* `Verif/Apps/Halo.lean`: sstmac/skeletons/halo3d-26/halo3d-26.cc 51-58, 60-67, 82-199, 201, 203-207, 221-283, 307-413, 318-404
* `Verif/Apps/HaloProps.lean`: sstmac/skeletons/halo3d-26/halo3d-26.cc 234-249, 288-290
* `Verif/Apps/Hpcg.lean`: skeletons/hpcg-3.0/src/ComputeOptimalShapeXYZ.cpp 10-34, 15-18, 17, 21-31, 22-30, 36-52, 54-114, 55, 56, 81-113, 97, 97-102, 100-110, 104; skeletons/hpcg-3.0/src/MixedBaseCounter.cpp 20-26, 28-38, 40-46, 48-59, 52-56; skeletons/hpcg-3.0/src/GenerateGeometry.cpp 55-57
* `Verif/Apps/Lulesh.lean`: skeletons/lulesh2.0.3/lulesh-comm.cc 102-396, 102-2023, 117-139, 147-395, 149-393, 400-939, 447-936, 938, 987-1404, 1463-1856, 1916-2020; skeletons/lulesh2.0.3/lulesh-init.cc 385-430, 395-400, 404-428, 741-749, 777-790; skeletons/lulesh2.0.3/lulesh.cc 85-145, 95-114, 1046-1079, 1050-1077, 1165-1220, 1182-1217, 1806-1846, 1816, 1823-1846, 2547-2668, 2605-2611, 2605-2650; skeletons/lulesh2.0.3/lulesh.h 67, 149-150
* `Verif/Apps/LuleshBuf.lean`: skeletons/lulesh2.0.3/lulesh.h 514-515
* `Verif/Apps/Pic.lean`: skeletons/pic/pic.h 67, 70-71, 98-127, 129-131; skeletons/pic/pic.cc 106-112, 106, 115-120, 123-128, 131, 135-154, 182-206, 182-186, 202-203, 212-219, 237-277, 238, 245, 336-340; skeletons/pic/skeleton.cc 66-69, 70-79, 73-76, 90-108, 99-108, 120-220, 122-135, 125, 127-129, 142-145, 156-158, 169-172, 183-185, 196-199, 223-323, 224-228, 233-235, 236-237, 236-280, 238-278, 238-250, 252-264, 266-278
* `Verif/Apps/Sweep.lean`: sstmac/skeletons/sweep3d/sweep3d.cc 52-56, 82-127, 129-160, 180, 181, 183, 184, 206-319, 211-233, 321
* `Verif/Apps/Traffic.lean`: skeletons/traffic/main.cc 61, 92-108, 103, 116-147, 127-144, 130-138, 161-416, 169-170, 206, 218-345, 335-337, 347-352, 357-371, 374-508, 374-413, 418-433, 418-438, 421-424, 460-481, 470-480
* `Verif/Clang/Compute.lean`: bin/clang/computeVisitor.cc 152-464, 168-173, 213-224, 248-262, 595-623, 625-660, 629-636, 667-685; bin/clang/computePragma.cc 310-319; bin/clang/validateScope.h; bin/clang/pragmas.cc 566-572; bin/clang/computeLoops.h 51-78, 52-69, 63-68
* `Verif/Clang/Memory.lean`: bin/clang/computeVisitor.cc 54-150, 80-98, 152-194, 196-329, 286-307, 316, 667-685; bin/clang/dataFlow.h 88-98, 117, 121-131, 124; bin/clang/computeVisitor.h 57, 75-77
* `Verif/Coll/Allgather.lean`: sumi/allgather.cc 62-75, 77-97, 104-165, 173-206, 208-212, 225-260, 231-256
* `Verif/Coll/Allgatherv.lean`: sumi/allgatherv.cc 61-80, 87-96, 98-182, 119-160, 190-220; sumi/allgatherv.h 65-70
* `Verif/Coll/Allreduce.lean`: sumi/allreduce.cc 68-85, 87-229, 136-192, 141-151, 142, 195, 231-236
* `Verif/Coll/Alltoall.lean`: sumi/alltoall.cc 65-87, 98-119, 107-118, 136-196, 139-146, 154-163, 204-232, 234-297; sumi/sim_transport.cc 566
* `Verif/Coll/AlltoallProps.lean`: sumi/alltoall.cc 83-86
* `Verif/Coll/Barrier.lean`: sumi-mpi/mpi_api_collectives.cc 515-535; sumi/sim_transport.cc 902-910, 944-990; sumi/allgather.h 135-152, 148-151; sumi/collective_actor.cc 415-425
* `Verif/Coll/Bcast.lean`: sumi/bcast.cc 57-71, 60-70, 87-97, 107-113, 118, 141-157, 144-149, 154; sumi/bcast.h 61
* `Verif/Coll/Dag.lean`: sumi/collective_actor.h 76, 106-110; sumi/collective_actor.cc 161-273, 222-251, 673-697
* `Verif/Coll/DirectAlltoall.lean`: sumi/alltoallv.cc 77-93, 84, 89, 105-121, 108-121, 123-129; sumi/sim_transport.cc 822-829; sumi/alltoall.cc 235-311, 246-262, 253, 275-287, 288-294; sumi/collective_actor.cc 595-600, 673-684
* `Verif/Coll/Engine.lean`: sumi/collective_actor.h 505-525; sumi/collective_actor.cc 147-273, 147-159, 161-212, 227-250, 253-260, 262-273, 335-347, 384-402, 415-425, 551-568; sumi/collective.h 117
* `Verif/Coll/Gather.lean`: sumi/gather.cc 51-63, 65-85, 119-221, 125-129, 139-173, 143-156, 157-168, 176-183, 187-219
* `Verif/Coll/Reduce.lean`: sumi/reduce.cc 78-97, 99-292, 201-245, 253-287, 255; sumi/allreduce.cc 136-192, 194-223
* `Verif/Coll/Registry.lean`: sumi/sim_transport.cc 918-920, 948-980, 982-1004, 1023-1055, 1057-1072; sumi/collective.cc 122-138, 158-165, 167-194, 224-237, 238-241; sumi/transport.h 541-547; sumi/collective.h 142-154, 150-154, 193-232; sumi/collective_actor.cc 826-841
* `Verif/Coll/Rounds.lean`: sumi/allgather.cc 138-141; sumi/allreduce.cc 157-160; sumi/collective_actor.cc 578-636, 604-612, 673-697; sumi/collective_actor.h 75-135, 106-112
* `Verif/Coll/Scan.lean`: sumi/scan.cc 69-85, 79, 87-140, 147-152; sumi/collective_actor.h 365-369, 387
* `Verif/Coll/Scatter.lean`: sumi/scatter.cc 50-55, 57-104, 106-126, 134-224, 147-148, 184-222, 186-199, 200-217
* `Verif/Coll/Smp.lean`: sumi/sim_transport.cc 309-324, 312-322, 639-673, 642, 791-818, 833-885, 948-980, 973-977, 1032-1034; sumi/communicator.cc 59-136, 63-96, 65-72, 73-82, 98-130, 101-115, 104-105; sumi/collective.h 68-84, 142-191; sumi-mpi/mpi_comm/mpi_comm.cc 98-112, 199-206
* `Verif/Coll/Tree.lean`: sumi/collective_actor.h 106-110, 112-122, 542-582; sumi/collective_actor.cc 887-898, 888-897, 900-912, 914-927; sumi/allreduce.cc 93-94; sumi/reduce.cc 118-119
* `Verif/Dumpi/Early.lean`: sstmac/skeletons/undumpi/parsedumpi.cc 64-65; sstmac/skeletons/undumpi/parsedumpi_callbacks.h 112-117; sstmac/skeletons/undumpi/parsedumpi_callbacks.cc 1405
* `Verif/Dumpi/Meta.lean`: sstmac/dumpi_util/dumpi_meta.h 72-88; sstmac/dumpi_util/dumpi_meta.cc 55-71, 78-99, 86-95, 101-105, 112-129, 124-125, 133, 134; sstmac/dumpi_util/dumpi_util.cc 55-91, 64-72, 70-86
* `Verif/Dumpi/Replay.lean`: sstmac/skeletons/undumpi/parsedumpi_callbacks.cc 100-114, 123-138, 146-166, 169-202, 205-211, 214-240, 236, 243-254, 256-261, 263-268, 270-275, 280-289, 292-301, 316-332, 337-349, 650-2303, 877-881, 911-915, 1199-1289, 1230, 1404, 2221-2237, 2251; sumi-mpi/mpi_api.cc 442-456, 442-574, 458-467, 553-558; sumi-mpi/mpi_api_wait.cc 82-116; sumi-mpi/mpi_api_send_recv.cc 69-97, 99-137, 171-193, 269-309, 311-336, 387-426; sumi-mpi/mpi_api_comm.cc; sumi-mpi/mpi_api_group.cc; sumi-mpi/mpi_integers.h 59, 60, 185, 189, 190, 191; sumi-mpi/mpi_types.h 60, 61, 62, 63; sstmac/skeletons/undumpi/parsedumpi_callbacks.h 112-117, 158-161; sumi-mpi/mpi_api_type.cc 236-246; sumi-mpi/mpi_comm/mpi_comm.cc; sstmac/skeletons/undumpi/parsedumpi.cc 102-107
* `Verif/Events/Model.lean`: sstmac/common/event_manager.h 92-322, 192-194, 231-233, 298-309, 310-312; sstmac/common/event_manager.cc 108-135, 159-169, 184-205, 196-206, 283-345, 412-416, 418-425, 439-458; sstmac/common/event_scheduler.h 184-187; sstmac/common/event_scheduler.cc 88-94, 108-115, 184-193, 220-230; sstmac/common/sst_event.h 81-129, 92-96, 111-113
* `Verif/Launch/Alloc.lean`: sstmac/software/launch/node_set.h 54; sstmac/software/launch/job_launcher.cc 96; sstmac/software/launch/first_available_allocation.cc 55-77, 63-74; sstmac/software/launch/random_allocation.cc 73-93; sstmac/software/launch/stride_allocation.cc 84-109, 91-101; sstmac/software/launch/greedy_dfly_allocation.cc 97-143, 110-134, 114-118, 114-127; sstmac/hardware/topology/dragonfly.h; sstmac/software/launch/node_id_allocation.cc 105-126; sstmac/software/launch/cart_allocation.cc 144-155
* `Verif/Launch/Files.lean`: sstmac/software/launch/cart_allocation.cc 68-102, 105-124, 134-136; sstmac/software/launch/coordinate_allocation.cc 99-135, 111-113; sstmac/software/launch/coordinate_task_mapper.cc 67-85; sstmac/software/launch/node_id_task_mapper.cc 78-90; sstmac/software/launch/hostname_allocation.cc 70-105; sstmac/software/launch/hostname_task_mapper.cc 70-103; sstmac/hardware/topology/cartesian_topology.cc 96-158, 125-156, 160-172, 174-187; sstmac/hardware/topology/topology.cc 312-321, 323-338; sstmac/software/launch/node_id_allocation.cc 72-103
* `Verif/Launch/Jobs.lean`: sstmac/software/launch/job_launcher.cc 73-84, 94-102, 163-182, 184-197, 199-218, 209-216, 226-236, 238-248; sstmac/software/process/app.cc 552-560; sstmac/software/launch/node_id_task_mapper.cc 69-87; sstmac/software/launch/launch_request.cc 168-179
* `Verif/Launch/JobsProps.lean`: sstmac/software/process/app.cc 553
* `Verif/Launch/Mapper.lean`: sstmac/software/launch/node_set.h 54; sstmac/software/launch/task_mapper.cc 64-94; sstmac/software/launch/block_task_mapper.cc 55-87, 71-86; sstmac/software/launch/round_robin_task_mapper.cc 51-68; sstmac/software/launch/launch_request.cc 124-134, 157-163; sstmac/software/launch/job_launcher.cc 187-191; sstmac/software/launch/random_task_mapper.cc 70-107, 85-91, 88-90
* `Verif/Launch/Options.lean`: sstmac/main/parseopts.cc 79-83, 85-308, 88-104, 143-212, 143-220, 145-212, 150, 169, 222-307, 232-240, 242-254, 261-304; sstmac/main/sstmac.cc 175-208; sstmac/main/params.cc 82-155, 83, 162-199; sprockit/sprockit/sim_parameters.h 243-246; sstmac/main/sstmac.h 60-92, 76-89
* `Verif/Launch/OptionsProps.lean`: sstmac/main/help.cc 81-82
* `Verif/Launch/Outcast.lean`: sstmac/software/launch/job_launcher.h 227-263, 231-239, 232-235, 246-261; sstmac/software/process/operating_system.cc 642-684, 653-656; sstmac/software/launch/app_launcher.cc 71-113, 94; sstmac/software/launch/job_launcher.cc 194
* `Verif/Launch/Request.lean`: sstmac/software/launch/launch_request.cc 75-107, 168-179, 188-208, 227-310, 259-281; sstmac/software/launch/job_launcher.cc 112-142, 125, 145-160; sstmac/software/launch/task_mapping.cc 59-78, 79-85, 114-122, 124-134; sstmac/backends/native/manager.cc 120-179, 181-200; sstmac/main/params.cc; sstmac/software/launch/app_launcher.cc 130-134; sprockit/sprockit/sim_parameters.h 615-617; sprockit/sprockit/sim_parameters.cc 1047-1066
* `Verif/Mem/LogP.lean`: sstmac/hardware/logp/logp_memory_model.cc 60-102, 73-80, 88-97; sstmac/hardware/memory/memory_model.h 158; sstmac/hardware/logp/logp_memory_model.h 95-119
* `Verif/Mem/Pisces.lean`: sstmac/hardware/pisces/pisces_memory_model.cc 64-90, 64-216, 68, 98-108, 110-130, 132-145, 144-154, 156-173, 175-185; sstmac/hardware/pisces/pisces_memory_model.h 93-124, 93-99, 108-111
* `Verif/Mem/Snappr.lean`: sstmac/hardware/snappr/snappr_mem.cc 56-77, 56-148, 62-74, 79-106, 98, 108-130, 132-147; sstmac/hardware/snappr/snappr_mem.h 84-124, 100-104, 112-119; sstmac/hardware/snappr/snappr_nic.cc 241
* `Verif/Mpi/CollCall.lean`: sumi-mpi/mpi_api_collectives.cc 86-153, 155-160, 169-185, 247-249; sumi-mpi/mpi_api_vcollectives.cc 82-111, 192-203, 315-327, 354-360, 421-432; sumi-mpi/mpi_request.cc 57-99; sumi-mpi/mpi_integers.h 164; sumi-mpi/mpi_request.h 71-98; sumi-mpi/mpi_types/mpi_type.cc 369-379, 381-391; sumi/alltoall.cc 66-87; sumi/allgatherv.cc
* `Verif/Mpi/Comm.lean`: sumi-mpi/mpi_comm/mpi_group.cc 52-63, 65-79, 83-91, 94-107, 100-104; sumi-mpi/mpi_api_group.cc 50-79, 55-75, 63-66, 71-74, 81-100, 90-92; sumi-mpi/mpi_comm/mpi_comm_factory.cc 97-111, 113-119, 122-132, 134-154, 201-204, 262-311, 269-284, 281-283, 298; sumi-mpi/mpi_comm/mpi_comm_cart.cc 65-75, 77-87, 89-120; sumi-mpi/mpi_comm/mpi_comm.cc 81, 199-206; sumi-mpi/mpi_integers.h 217; sumi-mpi/mpi_types.h 60; sumi-mpi/mpi_comm/mpi_comm.h 197
* `Verif/Mpi/DtHandles.lean`: sumi-mpi/mpi_api_type.cc 136-251, 253-654, 316-351, 354-367, 369-427, 389-399, 467-477, 470-474, 501-524, 541-594, 563-574, 596-608, 610-620, 613-614, 626-639, 644-654; sumi-mpi/mpi_types/mpi_type.h 78; sumi-mpi/mpi_types/mpi_type.cc 183-210, 212-222, 319-367, 347-367, 369-391; sumi-mpi/mpi_api_collectives.cc 732-737, 733; sumi-mpi/mpi_api.h 822; sumi-mpi/mpi_protocol/mpi_protocol.cc 57-68
* `Verif/Mpi/Handles.lean`: sumi-mpi/mpi_api_comm.cc 59-83, 85-104, 106-113, 115-138, 161-167, 169-186, 262-275, 288-311; sumi-mpi/mpi_api_group.cc 81-100, 129-145, 147-156; sumi-mpi/mpi_comm/mpi_comm_factory.cc 97-111, 113-119, 122-132, 134-154, 156-170, 262-311, 328-343; sumi-mpi/mpi_comm/mpi_comm.h 194-214; sumi-mpi/mpi_comm/mpi_comm.cc 68-71, 208-212, 214-218; sumi-mpi/mpi_comm/mpi_comm_cart.cc 49-55; sumi-mpi/mpi_api.cc 130, 174-195, 191-195, 216-221, 236-249, 442-456, 458-467, 498-507, 529-535; sumi-mpi/mpi_integers.h 59, 60, 185, 190, 191; sumi-mpi/mpi_api.h 849-853, 849-852; sumi-mpi/mpi_comm/mpi_group.h 57-106; sumi-mpi/mpi_comm/mpi_group.cc 81-92
* `Verif/Mpi/HandlesProps.lean`: sumi-mpi/mpi_integers.h 65
* `Verif/Mpi/HostTime.lean`: sstmac/software/process/host_timer.h 59-71, 70, 74; sstmac/software/process/thread.cc 213-222, 224-230, 289-298; sstmac/software/process/app.cc 534-542; sstmac/software/api/api.cc 128-131; sumi-mpi/mpi_api.h 900-908; sumi-mpi/mpi_api_test.cc 54-80, 82-231; sumi-mpi/mpi_api.cc 223-272; sumi-mpi/mpi_api_probe.cc 58-100; sumi-mpi/mpi_api_send_recv.cc 72-137
* `Verif/Mpi/Lifecycle.lean`: sumi-mpi/mpi_api.cc 119-127, 223-272, 274-280; sumi-mpi/mpi_api.h 132-140, 833-835
* `Verif/Mpi/Model.lean`: sumi-mpi/mpi_queue/mpi_queue.cc 82-86, 88-109, 168-199, 177-186, 205-218, 231-249, 290-310, 312-328, 315-325, 361-399, 372-391, 417-422; sumi-mpi/mpi_queue/mpi_queue_recv_request.cc 96-100, 102-106; sumi-mpi/mpi_queue/mpi_queue_probe_request.cc 71-75; sumi-mpi/mpi_protocol/mpi_protocol.h; sumi-mpi/mpi_types.h 61, 63; sumi/transport.h 200-212; sumi-mpi/mpi_protocol/rendezvous_rdma.cc 112-121, 187-198; sstmac/hardware/network/network_message.h; sumi-mpi/mpi_protocol/eager0.cc 103-120; sumi-mpi/mpi_protocol/eager1.cc 82-94, 96-102; sumi-mpi/mpi_request.h 184-187; sumi-mpi/mpi_queue/mpi_queue.h 211-212; sumi-mpi/mpi_types/mpi_type.h 129
* `Verif/Mpi/Modes.lean`: sumi-mpi/sstmac_mpi_macro.h 84-89; sumi-mpi/mpi_queue/mpi_queue.cc 178-187
* `Verif/Mpi/Ops.lean`: sumi/comm_functions.h 55-169, 55-182, 144-152, 171-182; sumi-mpi/mpi_types/mpi_type.h 159-199, 161-166, 168-172, 178-180, 182-191, 193-199; sumi-mpi/mpi_types/mpi_type.cc 135-181, 172-181; sumi-mpi/mpi_api_type.cc 60-251, 91-119, 91-104, 106-119, 155-159, 166-227, 166-234, 297-307, 297-314, 309-314, 644-654; sumi-mpi/mpi_api_collectives.cc 722-746; sumi-mpi/mpi_integers.h 84-99, 102-157; sumi-mpi/mpi_api.h 824-825; sumi-mpi/mpi_api.cc 124
* `Verif/Mpi/Probe.lean`: sumi-mpi/mpi_api_probe.cc 58-77; sumi-mpi/mpi_queue/mpi_queue.cc 261-286, 401-415; sumi-mpi/mpi_queue/mpi_queue_probe_request.cc 66-75; sumi-mpi/mpi_protocol/eager0.cc 103-121; sumi-mpi/mpi_protocol/rendezvous_rdma.cc 187-198; sumi-mpi/mpi_protocol/eager1.cc 96-102
* `Verif/Mpi/Quiesce.lean`: sumi-mpi/mpi_protocol/rendezvous_rdma.cc 56-74, 76-84, 86-90, 113-130, 132-158, 160-185, 187-198, 200-236, 206-221, 218, 238-266; sumi-mpi/mpi_protocol/mpi_protocol.h 181-192; sumi-mpi/mpi_message.h 141; sumi-mpi/mpi_message.cc 58-68
* `Verif/Mpi/Request.lean`: sumi-mpi/mpi_api_send_recv.cc 65-67, 69-97, 98-137, 112, 139-169, 171-193, 232-267, 269-281, 311-336, 338-351, 353-385, 394-411; sumi-mpi/mpi_request.h 57-70, 141-260, 145-150, 171-173, 189; sumi-mpi/mpi_request.cc 104-115, 108-115; sumi-mpi/mpi_api.cc 118-136, 553-558, 560-571; sumi-mpi/mpi_api_wait.cc 56-103, 105-116; sumi-mpi/mpi_api_test.cc 54-80; sumi-mpi/mpi_integers.h 54, 189; sumi-mpi/mpi_status.h 49-59; sumi-mpi/mpi_types.h 59, 62, 96; sumi-mpi/mpi_api.h 857; sumi-mpi/mpi_queue/mpi_queue.cc 252-254, 447-469
* `Verif/Mpi/TestProgress.lean`: sumi-mpi/mpi_api_test.cc 54-80, 111-151, 153-192, 194-230; sumi-mpi/mpi_api.cc 144; sumi-mpi/mpi_queue/mpi_queue.cc 499-507
* `Verif/Mpi/Types.lean`: sumi-mpi/mpi_types/mpi_type.cc 61, 134, 134-138, 369-391, 416-443; sumi-mpi/mpi_api_type.cc 229-234, 316-351, 354-367, 369-427, 389-399, 395, 501-524, 541-594, 563-574; sumi-mpi/mpi_protocol/mpi_protocol.cc 57-68; sumi-mpi/mpi_queue/mpi_queue.cc 251-260, 255-257; sumi-mpi/mpi_types/mpi_type.h; sumi-mpi/mpi_queue/mpi_queue_recv_request.cc 76-80
* `Verif/Mpi/Wait.lean`: sumi-mpi/mpi_api_wait.cc 81-103, 105-116, 118-154, 156-237, 171-196, 239-313, 257-276; sumi-mpi/mpi_api_test.cc 54-80, 111-151, 153-192, 194-230; sumi-mpi/mpi_request.h 151-253, 180-182; sumi-mpi/mpi_api.h 856; sumi-mpi/mpi_queue/mpi_queue.cc 457-465
* `Verif/Mpi/Xfer.lean`: sumi-mpi/mpi_queue/mpi_queue.cc 251-260; sstmac/hardware/network/network_message.cc 79-163, 83-86, 110-118; sstmac/hardware/nic/nic.cc 186-241; sumi-mpi/mpi_protocol/mpi_protocol.h; sumi-mpi/mpi_protocol/eager0.cc 60-80, 82-100, 92; sumi-mpi/mpi_protocol/eager1.cc 64-81, 104-123, 116, 125-133; sumi-mpi/mpi_queue/mpi_queue_recv_request.cc 72-76; sumi-mpi/mpi_protocol/rendezvous_rdma.cc 93-127, 131-159, 200-240; sumi-mpi/mpi_protocol/mpi_protocol.cc 92-106, 108-123, 143-148; sstmac/hardware/common/unique_id.h 67-72
* `Verif/Nic/Inject.lean`: sstmac/hardware/pisces/pisces_nic.cc 137-171, 144-149, 173-183, 198-216, 204-215; sstmac/hardware/snappr/snappr_nic.cc 217-255, 220-254, 257-265, 342-349, 371-387, 411-445, 447-490, 487-488, 493-540, 503-504, 510-515, 511-514, 527-533, 529-532, 535-538; sstmac/hardware/pisces/pisces_buffer.h 75-77; sstmac/hardware/snappr/snappr_nic.h
* `Verif/Nic/LogP.lean`: sstmac/hardware/logp/logp_nic.cc 58-68, 73-92, 85, 95-116; sstmac/hardware/logp/logp_switch.cc 67-90, 123-158, 138-141, 192-200, 194-198, 204-212; sstmac/hardware/nic/nic.cc 105, 308-345, 308-329, 331-345; sstmac/hardware/logp/logp_nic.h 108-110; sstmac/hardware/interconnect/interconnect.cc 376-396; sstmac/common/timestamp.h 303-313
* `Verif/Nic/Merlin.lean`: sstmac/hardware/merlin/merlin_nic.cc 144-145, 146, 199-207, 213-216, 250-258, 260-267, 273-284, 286-322, 287, 288, 290-312, 294-313, 296-305, 326-327; sstmac/hardware/network/network_message.h 57-260
* `Verif/Nic/Negligible.lean`: sstmac/hardware/nic/nic.cc 72, 312-329; sstmac/hardware/nic/nic.h 209-211
* `Verif/Nic/RecvCq.lean`: sstmac/hardware/common/recv_cq.h 78-88, 97; sstmac/hardware/common/recv_cq.cc 74-98, 85-89; sstmac/hardware/common/flow.h; sstmac/hardware/common/packet.h 55-187
* `Verif/Nic/RingProps.lean`: sstmac/hardware/snappr/snappr_nic.cc 449-454
* `Verif/Os/AppEnv.lean`: sstmac/software/process/app.cc 147-215, 227-266, 250-251, 255-266, 261-265, 277-286, 288-295, 288-294, 391-403, 405-423, 543-549, 566, 654-672, 674-695, 735-760, 744-757; sstmac/software/process/app.h 272; sprockit/sprockit/basic_string_tokenizer.h 88-135; sstmac/main/sstmac.cc 367-371; sprockit/sprockit/factory.h 284-303
* `Verif/Os/AppStreams.lean`: sstmac/software/process/app.cc 298-353, 303-314, 363-379
* `Verif/Os/CallGraph.lean`: sstmac/software/process/graphviz.h 56-175, 115-120, 211; sstmac/software/process/graphviz.cc 110-120, 122-138, 169-208, 190-203, 210-226, 242-263; sstmac/software/process/backtrace.h; sstmac/software/process/thread.cc 267-276, 278-283; sstmac/software/process/thread.h 441-445
* `Verif/Os/Compute.lean`: sstmac/software/process/app.cc 480-496; sstmac/hardware/processor/instruction_processor.cc 77-82, 86-94, 96-115; sstmac/common/timestamp.cc 64-71; sstmac/software/libraries/compute/compute_event.h 121-128; sstmac/software/libraries/compute/lib_compute_inst.cc 105-118; sstmac/software/libraries/compute/compute_api.cc 63-90, 130-156; sstmac/software/libraries/compute/lib_compute_memmove.cc 69-79; sstmac/hardware/logp/logp_memory_model.cc; sstmac/software/process/operating_system.cc 357-360; sstmac/software/process/simple_compute_scheduler.cc 63-64; sstmac/hardware/memory/memory_model.h 165; sstmac/common/timestamp.h 129; sstmac/libraries/blas/daxpy.cc 84-95; sstmac/libraries/blas/ddot.cc 84-95; sstmac/libraries/blas/dgemv.cc 84-95; sstmac/libraries/blas/dgemm.cc 86-125, 105-109; sstmac/libraries/blas/blas_api.cc 80-88
* `Verif/Os/Cores.lean`: sstmac/software/process/simple_compute_scheduler.cc 53-89, 91-121, 103-117; sstmac/software/process/cpuset_compute_scheduler.cc 52-81, 55-66, 57, 83-97, 99-126, 102-109, 103-105, 111-126; sstmac/software/process/thread.h 293-319, 297-315, 298; sstmac/software/process/operating_system.cc 411-432; sstmac/software/process/cpuset_compute_scheduler.h 64-73, 71; sstmac/libraries/pthread/sstmac_sched.cc 173-185
* `Verif/Os/CpuSet.lean`: sstmac/libraries/pthread/sstmac_sched.cc 91-97, 91-169, 99-105, 107-110, 112-118, 120-129, 136-141, 143-146, 148-151, 153-156; sstmac/libraries/pthread/sstmac_sched.h 85-118, 85, 116; sstmac/libraries/pthread/sstmac_cpu_set.h 52-55
* `Verif/Os/Exit.lean`: sstmac/software/process/app.cc 148-153, 161-199, 201-215, 245, 534-538, 539-566; sstmac/software/process/thread.h 199-205; sstmac/software/process/thread.cc 148-151; sstmac/main/util.cc; sstmac/software/launch/job_launcher.cc 136, 163-167; sstmac/main/sstmac.cc 367-371; sstmac/replacements/stdlib.h 86-91; sstmac/hardware/node/node.cc 222-243; sstmac/software/process/app.h 280-288; sstmac/software/launch/app_launcher.cc 70-110
* `Verif/Os/Globals.lean`: sstmac/software/process/global.cc 82-88, 90-94, 96-132, 101-102, 105-108, 134-145, 156-164, 174-185, 177-180; sstmac/software/process/global.h 58-112, 159-169, 200-212, 240-244, 246-251; sstmac/software/process/app.cc 126-143; sstmac/software/process/thread_info.cc 141-148, 160-176
* `Verif/Os/Libc.lean`: sstmac/main/util.cc 78-80, 103-115, 117-129, 174-184, 202-216, 207-208; sstmac/null_buffer.h 66-73; sstmac/software/process/operating_system.cc 175-176, 183; sstmac/software/process/app.cc 504-520; sprockit/sprockit/sim_parameters.h 520-522
* `Verif/Os/Libs.lean`: sstmac/software/process/operating_system.cc 581-624, 581-607, 609-624, 787-821; sstmac/software/process/operating_system.h 385-392; sstmac/software/libraries/library.cc 52-64
* `Verif/Os/Mutex.lean`: sstmac/libraries/pthread/sstmac_pthread.cc 260-281, 291-308, 317-337, 409-456, 474-500, 525-535, 691-719; sstmac/software/process/mutex.h 11-21, 18; sstmac/software/process/operating_system.cc 411-432; sstmac/software/process/thread.cc
* `Verif/Os/Omp.lean`: sstmac/libraries/omp/libomp.cc 95-99, 104-155, 135-140; sstmac/software/process/thread.h 324-358, 344-347; sstmac/software/process/thread.cc 320-334, 320-355, 349-355; sstmac/software/process/app.cc 248-253; sstmac/libraries/pthread/sstmac_pthread.cc 290-308
* `Verif/Os/Progress.lean`: sstmac/software/process/progress_queue.h 186-262, 197-225, 198-204, 211-224, 227-249, 237-248, 251-260; sstmac/software/process/progress_queue.cc 50-74, 59; sstmac/software/process/operating_system.cc 411-432; sstmac/software/libraries/unblock_event.cc 68-78
* `Verif/Os/Pthread.lean`: sstmac/libraries/pthread/sstmac_pthread.cc 76-106, 133-153, 151, 166-172, 536-543, 545-551, 553-561, 563-579, 683-689, 781-791, 793-803; sstmac/software/process/thread.cc 74, 80-99, 106-123, 187, 191, 231-242, 251-258, 260-264, 410-444, 410-423, 432-439, 441-444; sstmac/software/process/thread.h 127, 440-475; sstmac/software/process/app.h 263; sstmac/software/process/operating_system.h 408; sstmac/software/process/operating_system.cc 526-544, 542-543, 556-578, 566-573, 741-761, 744-746, 747-761, 823-832; sstmac/software/process/app.cc 117-124, 227-236, 568-575, 577-587, 589-593; sstmac/libraries/pthread/sstmac_pthread_runner.cc 52-66, 70-74; sstmac/libraries/pthread/sstmac_sched.cc 171-184, 186-192
* `Verif/Os/Stacks.lean`: sstmac/software/threading/stack_alloc.cc 61-79, 96-119, 99, 109-113, 115, 116, 124-130, 128; sstmac/software/threading/stack_alloc_chunk.cc 64, 66, 86-96, 91-95, 99-108; sstmac/software/threading/stack_alloc_chunk.h
* `Verif/Os/Threads.lean`: sstmac/software/process/operating_system.cc 300-340, 301-340, 331-340, 410-432, 416, 420-431, 454-579, 454-469, 507-512, 514-524, 526-544, 557-579, 741-761; sstmac/software/process/thread.cc 78-171, 107-123, 141-147, 148-149, 388-400; sstmac/software/process/app.cc 438-450; sstmac/software/libraries/unblock_event.cc 50-79; sstmac/libraries/pthread/sstmac_pthread.cc 76-154, 76-105, 115-121, 275-276, 329-332, 330-332, 445-453, 458-469, 494-497; sstmac/common/event_scheduler.cc 108-115; sstmac/software/process/thread.h 82-420, 199-205; sstmac/common/event_manager.h 298-309; sstmac/software/threading/threading_ucontext.cc 93
* `Verif/Otf2/Replay.lean`: sstmac/skeletons/otf2_trace_replay/callid.h; sstmac/skeletons/otf2_trace_replay/structures.cc; sstmac/skeletons/otf2_trace_replay/callbacks.cc 290-313, 315-624, 506-523, 528-613, 560, 646-1072, 646-1526, 1077-1087, 1267; sstmac/skeletons/otf2_trace_replay/mpicall.h 59-133; sstmac/skeletons/otf2_trace_replay/otf2_trace_replay.cc 94-111, 157-167, 169-172, 254-282; sstmac/skeletons/otf2_trace_replay/callqueue.h 99-107, 119-128, 151-153, 156-163, 177-179, 181-184; sstmac/skeletons/otf2_trace_replay/otf2_trace_replay.h 142; sstmac/skeletons/otf2_trace_replay/callqueue.cc 60-79, 66-76, 82-91, 94-101, 97-99
* `Verif/Otf2/ReplayProps.lean`: sstmac/skeletons/otf2_trace_replay/callbacks.cc 550-595
* `Verif/Otf2/Spec.lean`: sstmac/skeletons/otf2_trace_replay/callbacks.cc
* `Verif/Otf2/Writer.lean`: sumi-mpi/otf2_output_stat.cc 59-65, 105, 121-133, 148-156, 158-167, 160-162, 169-186, 176-200, 214-222, 231-244, 252-256
* `Verif/Parallel/CoreLinks.lean`: sstmac/sst_core/python_topology.cc 258-325; sstmac/hardware/common/connection.cc 105-165, 108, 110-113, 125-128, 136-149, 141-144, 151-165, 156-159; sstmac/hardware/switch/network_switch.cc 85-104; sstmac/hardware/nic/nic.cc 119-126, 119-141, 128-141; sstmac/hardware/logp/logp_switch.cc 95-100; sstmac/hardware/topology/topology.h 397; sstmac/hardware/nic/nic.h 117-120; sstmac/hardware/topology/topology.cc 355-367; sstmac/hardware/logp/logp_nic.cc 66
* `Verif/Parallel/CoreTopoProps.lean`: sstmac/hardware/topology/cascade.cc 99; sstmac/hardware/topology/dragonfly.cc 112; sstmac/hardware/topology/dragonfly_plus.cc 135; sstmac/hardware/topology/fat_tree.cc 438; sstmac/hardware/topology/fully_connected.cc 69; sstmac/hardware/topology/hypercube.cc 79; sstmac/hardware/topology/star.cc 72; sstmac/hardware/topology/torus.cc 78
* `Verif/Parallel/Links.lean`: sstmac/hardware/interconnect/interconnect.cc 113-190, 164-174, 171-173, 193-205, 223-293, 255-272, 275-290, 320-415, 346-412, 357, 361-373, 517-614, 538-611, 552; sstmac/common/event_scheduler.cc 184-193, 184-230; sstmac/common/event_manager.cc 151-157, 283-310; sstmac/hardware/topology/structured_topology.cc 65-69; sstmac/hardware/topology/file.h 107-111; sstmac/hardware/topology/topology.h 79-84, 104-108; sstmac/common/event_scheduler.h 530-606, 556-565, 576-590
* `Verif/Parallel/Model.lean`: sstmac/backends/native/clock_cycle_event_container.cc 115-143, 147-192, 150, 162-164, 175-177; sstmac/backends/native/multithreaded_event_container.cc 230-287, 240-242, 261-272, 299; sstmac/common/event_manager.cc 180-181, 181, 184-206, 321-345, 329-343, 396-410; sstmac/common/event_scheduler.cc 184-193, 195-213, 220-230; sstmac/common/event_manager.h 192-194, 259-262, 261; sstmac/hardware/interconnect/interconnect.cc 176-187; sstmac/common/event_scheduler.h 92-110, 162-182
* `Verif/Parallel/Partition.lean`: sstmac/backends/common/sim_partition.cc 143-159, 145-151, 188-194, 188-219
* `Verif/Parallel/Tree.lean`: sstmac/backends/native/multithreaded_event_container.cc 194-201, 203-206, 206-228, 211-223; sstmac/backends/native/multithreaded_event_container.h 63-83
* `Verif/Params/Core.lean`: sstmac/sst_core/integrated_core.cc 113-145, 147-159, 157, 161-173, 216-218; sstmac/sst_core/python_topology.cc 345-365
* `Verif/Params/FileProps.lean`: sstmac/main/parseopts.cc 198-203; sprockit/sprockit/sim_parameters.cc 1035-1044
* `Verif/Params/Keywords.lean`: sprockit/sprockit/keyword_registration.cc 63-65, 81-115, 86, 89-91, 95-102, 124-129, 164-183, 170-181, 198-204; sprockit/sprockit/fileio.cc 54-58, 60-76, 69-75; sprockit/sprockit/keyword_registration.h 73, 83-85, 88
* `Verif/Params/Model.lean`: sprockit/sprockit/sim_parameters.h 386, 651-667, 659; sprockit/sprockit/sim_parameters.cc 241-244, 271-278, 311-316, 386-395, 389-394, 397-406, 404, 408-419, 411-413, 412, 414-418, 421-433, 562-577, 566-574, 664-677, 671-673, 679-691, 688-690, 724-733, 770-771, 783-792, 803-848, 804-848, 807-808, 810-811, 810-847, 814-846, 816-846, 829, 832, 836, 840-843, 840, 869-873, 884-901, 888, 953-971, 977-978, 981-986, 996-1013, 1002-1003, 1009-1012, 1046-1066, 1052-1057, 1059-1065; sprockit/sprockit/basic_string_tokenizer.h 52-64, 52-53, 88-133; sstmac/main/sstmac.cc 186
* `Verif/Params/UnitTables.lean`: sprockit/sprockit/units.cc 90-231, 94, 98, 102, 108, 114, 120, 126, 132, 138, 144, 150, 156, 162, 169, 176, 183, 190, 197, 204, 211, 218, 225, 298-310, 303, 304, 306, 308, 312-326, 317, 319, 321, 323, 325, 328-338, 333, 334, 335, 336, 337
* `Verif/Params/Units.lean`: sprockit/sprockit/units.cc 234-503, 234-296, 248-274, 340-387, 348-373, 389-441, 400-426, 443-496, 454-480; sprockit/sprockit/sim_parameters.cc 67-90, 67-101; sprockit/sprockit/sim_parameters.h 503-541
* `Verif/Params/Units0.lean`: sprockit/sprockit/units.cc; sprockit/sprockit/sim_parameters.cc 67-101
* `Verif/Pisces/Arbitrator.lean`: sstmac/hardware/pisces/pisces_arbitrator.h 72-82, 211-215; sstmac/hardware/pisces/pisces_arbitrator.cc 112-126, 139-161, 163-170, 190-238, 260-402, 292-371, 376-398
* `Verif/Pisces/Flow.lean`: sstmac/hardware/pisces/pisces.h 180-226; sstmac/hardware/pisces/pisces_crossbar.cc 205, 262-298; sstmac/hardware/pisces/pisces_buffer.cc 73-83, 173, 206-219; sstmac/hardware/pisces/pisces_crossbar.h 83-85; sstmac/hardware/pisces/pisces_sender.cc 105-154; sstmac/hardware/pisces/pisces_switch.cc 188-197; sstmac/hardware/pisces/pisces_nic.cc 132-170, 185-196
* `Verif/Pisces/Slot.lean`: sstmac/hardware/pisces/pisces.h 66-177; sstmac/hardware/pisces/pisces_buffer.cc 110-166, 151-163, 168-208, 198; sstmac/hardware/pisces/pisces_crossbar.cc 160-197, 196-232, 229; sstmac/hardware/pisces/pisces_sender.cc 58-70, 64
* `Verif/Pisces/Switches.lean`: sstmac/hardware/pisces/pisces_switch.cc 119-133, 121, 165-188, 181-183, 199-204; sstmac/hardware/pisces/pisces_nic.cc 80-82; sstmac/hardware/interconnect/interconnect.cc 249-267, 264, 267, 282, 285, 607; sstmac/hardware/topology/topology.h; sstmac/hardware/pisces/pisces_buffer.cc 88
* `Verif/Sculpin/Nic.lean`: sstmac/hardware/sculpin/sculpin_nic.cc 133-139, 144-158, 160-164, 177-190, 192-206; sstmac/hardware/sculpin/sculpin_switch.cc 313-332
* `Verif/Sculpin/Port.lean`: sstmac/hardware/sculpin/sculpin_switch.h 122-135, 137-150; sstmac/hardware/sculpin/sculpin_switch.cc 189-240, 242-255, 257-291, 266-270; sstmac/hardware/sculpin/sculpin.h 126-137
* `Verif/Serial/CommBuffer.lean`: sstmac/backends/common/parallel_runtime.cc 77-165, 90-97, 99-102, 100-102, 130-136, 140-154; sstmac/backends/mpi/mpi_runtime.cc 264-276; sstmac/backends/common/parallel_runtime.h 91-165, 98-102
* `Verif/Serial/Message.lean`: sstmac/backends/common/parallel_runtime.cc 315-324, 330-343, 345-351; sstmac/common/event_manager.cc 221-234; sstmac/backends/native/clock_cycle_event_container.cc 131-141, 134-140; sstmac/common/ipc_event.h 53-64; sstmac/backends/common/parallel_runtime.h 64-69
* `Verif/Serial/Model.lean`: sprockit/sprockit/serializer.h 121-135, 137-156, 155-207, 159-163; sprockit/sprockit/serializer.cc 52-64, 60, 66-71, 73-98, 87-89; sprockit/sprockit/serialize.h 67-75; sprockit/sprockit/serialize_string.h; sprockit/sprockit/serialize_vector.h 52-84, 71, 76; sprockit/sprockit/serialize_list.h 53-90, 83, 84; sprockit/sprockit/serialize_set.h 52-89, 81-86; sprockit/sprockit/serialize_map.h 53-95, 85-92; sprockit/sprockit/serialize_array.h; sprockit/sprockit/serialize_serializable.cc 53-91; sprockit/sprockit/serialize_buffer_accessor.h 67-83, 75-81, 93-97; sprockit/sprockit/serialize_sizer.h; sprockit/sprockit/serialize_packer.h 56-59; sprockit/sprockit/serialize_unpacker.h; sprockit/sprockit/serializable.cc 98-108, 102-105
* `Verif/Snappr/Flow.lean`: sstmac/hardware/snappr/snappr_switch.cc 216-233, 272-300, 280-281; sstmac/hardware/snappr/snappr.h 192-230; sstmac/hardware/snappr/snappr_outport.cc 123-133, 135-222, 199-206; sstmac/hardware/snappr/snappr_nic.cc 281-317
* `Verif/Snappr/Port.lean`: sstmac/hardware/snappr/snappr_outport.h 57-79, 127-237; sstmac/hardware/snappr/snappr_outport.cc 123-133, 135-222, 145-172, 224-241, 264-283, 285-313, 328-350, 352-466, 354-359, 372-391, 426-431, 437-450, 442-449, 463-465, 468-968, 471-527, 473-477, 536-555, 631-658, 671-679, 697-742, 744-774, 776-786, 788-807, 809-844, 846-904, 912-963; sstmac/hardware/snappr/snappr.h 62-190
* `Verif/Stats/Csv.lean`: sstmac/common/stats/stat_collector.cc 64-131, 70-83, 105-109, 120-134; sstmac/common/stats/stat_collector.h 205-209, 217-305, 283-295, 299-301; sstmac/common/event_manager.cc 236-261, 236-285, 269-283; sstmac/common/stats/stat_histogram.h 68-106, 68-98, 100-109, 138-142
* `Verif/Stats/Ftq.lean`: sstmac/common/stats/ftq.cc 176-201, 199, 262-320, 304-318; sstmac/common/stats/ftq.h 101-109, 144-151, 193-196
* `Verif/Stats/Vtk.lean`: sstmac/hardware/vtk/vtk_stats.h 103-149, 118-130, 132-148, 151-171, 157-163, 165-170, 240-256; sstmac/hardware/vtk/vtk_stats.cc 130-134, 425-433, 453-475, 469, 495-512, 514-560, 524-529, 536-540, 568-574
* `Verif/Sumi/Comm.lean`: sumi/communicator.h 138-321, 154, 168, 187-192, 198, 203, 259-263, 293-297; sumi/communicator.cc 143-147, 149-153, 155-159, 160-166, 164-166, 169-174, 176-185, 187-198, 200-205, 207-231
* `Verif/Sumi/DenseRank.lean`: sumi/dense_rank_map.cc 83-94, 97-106, 108-120, 122-133, 135-173; sumi/dense_rank_map.h 77
* `Verif/Sumi/Transport.lean`: sumi/sim_transport.cc 118-195, 143-152, 170-184, 238-293, 252-253, 295-307, 333-343, 391-450, 452-464, 466-479, 487-499, 507-530; sumi/sim_transport.h 241-251, 253-255, 272; sumi/transport.h 155-168, 155-212, 170-182, 184-197, 200-212; sstmac/hardware/nic/nic.cc 183-192, 194-241; sstmac/hardware/network/network_message.cc 67-79, 212-235, 237-245, 367-379; sstmac/hardware/network/network_message.h 73-88, 254-257, 361-401; sumi/message.h 62-247, 73, 119-123, 155-171, 191-193
* `Verif/Time/Model.lean`: sstmac/common/timestamp.h 79-200, 85, 119-125, 133-141, 172-174, 180-182, 184-186, 188-190, 192-194, 202-266, 206-208, 220-222, 224-226, 263, 264, 265, 273-275, 277-283, 285-291, 297-301, 303-313, 315-321, 323-329, 331-337, 339-341, 343-345, 347-353; sstmac/common/timestamp.cc 148-156, 177-181, 186-190, 195-208, 210-215, 217-222
* `Verif/Topo/Cascade.lean`: sstmac/hardware/topology/cascade.h 107-109, 141-143, 145-155, 157-159, 161-163, 165-167, 169-171; sstmac/hardware/topology/cascade.cc 67-70, 72-79, 79-87, 90-101, 103-116, 110-114, 118-131, 133-146, 148-183, 186-211, 213-236, 239-289, 305-320; sstmac/hardware/router/cascade_routing.cc 60-113, 89-91, 93-108, 103; sstmac/hardware/topology/dragonfly.cc
* `Verif/Topo/Coords.lean`: sstmac/hardware/topology/torus.cc 59-64, 190-201, 203-213
* `Verif/Topo/Dragonfly.lean`: sstmac/hardware/topology/dragonfly.h 55-112, 196-198, 200-202, 204-206; sstmac/hardware/topology/dragonfly.cc 55, 57-60, 72-101, 103-114, 116-141, 155-196, 164-174, 176-194, 356-426, 388-403, 389, 390, 414-424, 428-503, 461-477, 488-501, 505-603, 518, 524, 532-540, 549-559, 590-598; sstmac/hardware/router/dragonfly_routing.cc 66-195, 100-111, 113-125, 119-121, 127-131, 143-184
* `Verif/Topo/DragonflyLemmas.lean`: sstmac/hardware/topology/dragonfly.cc 515-530
* `Verif/Topo/DragonflyPlus.lean`: sstmac/hardware/topology/dragonfly_plus.h 152-154, 156-158, 160-162, 164-166, 168-170, 182-184; sstmac/hardware/topology/dragonfly_plus.cc 111-113, 115, 120-137, 139-153, 174-226; sstmac/hardware/router/dragonfly_plus_routing.cc 59-172, 78, 80-115, 92-95, 105-108, 120-122, 128-161, 149-157, 174-298, 203-207, 211-283, 245-258, 285-287
* `Verif/Topo/DragonflyProps.lean`: sstmac/hardware/topology/dragonfly.h 229-238
* `Verif/Topo/DragonflyScatter.lean`: sstmac/hardware/router/dragonfly_routing.cc 75-78, 569-813, 578-581, 592-599, 636-672, 674-676, 682-721, 704, 741-752, 761-763, 769-808
* `Verif/Topo/DragonflyValiant.lean`: sstmac/hardware/router/dragonfly_routing.cc 75-78, 157-184, 197-566, 211-214, 223-266, 223-232, 240-241, 243-254, 263, 272-274, 276-290, 292-304, 306-344, 315-341, 335-339, 376-378, 386, 408-415, 446-499, 456-493, 460-464, 485-491, 527-565, 537-562, 541-545, 556-560; sstmac/hardware/common/packet.cc 68
* `Verif/Topo/FatTree.lean`: sstmac/hardware/topology/fat_tree.h 102-104, 122-132, 151-163, 201-212, 234-236; sstmac/hardware/topology/fat_tree.cc 77-117, 89, 90, 216-341, 236-263, 258, 264-294, 295-318, 319-341, 343-421, 423-442; sstmac/hardware/router/fat_tree_router.h; sstmac/hardware/router/fat_tree_router.cc 60-82, 84-102, 111-155, 157-163, 165-173
* `Verif/Topo/File.lean`: sstmac/hardware/topology/file.h; sstmac/hardware/topology/file.cc 69-79, 81-88, 90-122, 124-135, 146-170, 172-198; sstmac/hardware/topology/topology.h; sstmac/hardware/topology/topology.cc 312-321; sstmac/hardware/router/table_routing.cc 83-87, 136-142, 159-173; sstmac/hardware/common/packet.h 68
* `Verif/Topo/Full.lean`: sstmac/hardware/topology/fully_connected.cc 58-69, 72-88; sstmac/hardware/topology/fully_connected.h 88-90; sstmac/hardware/router/router.cc 145-153, 183-185; sstmac/hardware/topology/star.cc 58-74; sstmac/hardware/common/packet.cc 68
* `Verif/Topo/Hypercube.lean`: sstmac/hardware/topology/hypercube.h; sstmac/hardware/topology/hypercube.cc 57-63, 65-82, 69-72, 84-103, 105-122, 154-186; sstmac/hardware/router/hypercube_routing.cc 70-73, 85-97, 103-281, 104-112; sstmac/hardware/common/packet.cc 68; sstmac/hardware/topology/torus.cc 190-201
* `Verif/Topo/Net.lean`: sstmac/hardware/topology/topology.h 79-84; sstmac/common/node_address.h 52
* `Verif/Topo/Opa.lean`: sstmac/hardware/topology/file.cc 67
* `Verif/Topo/Torus.lean`: sstmac/hardware/topology/torus.h 80-83, 133-135; sstmac/hardware/topology/torus.cc 60-64, 67-80, 82-101, 103-119, 121-134, 148-188, 157-163, 158-166; sstmac/hardware/router/torus_routing.cc 63-66, 92-106, 108-122, 124-148, 150-160
* `Verif/Topo/TorusPositive.lean`: sstmac/hardware/router/torus_routing.cc 389-416, 399-412, 418-427; sstmac/hardware/common/packet.cc 68
* `Verif/Topo/TorusValiant.lean`: sstmac/hardware/router/torus_routing.cc 178-181, 200-208, 217-262, 251-259, 285-349; sstmac/hardware/common/packet.cc 68
* `Verif/Util/CartGrid.lean`: sstmac/common/cartgrid.cc 70-82, 84-90, 92-103, 105-113, 115-141, 121-123, 126-136, 127-135, 143-205, 175-181, 188, 190-203, 192-202
* `Verif/Util/DebugFlags.lean`: sprockit/sprockit/debug.h 71-73, 81-84, 100-106, 296-299, 301-304; sprockit/sprockit/debug.cc 53, 60-67, 86-89, 128-137, 139-146, 144-145, 148-159, 161-172, 174-184, 186-195, 197-222, 206-221, 242-246; sstmac/main/parseopts.cc 57-66; sumi-mpi/mpi_debug.h 58-62
* `Verif/Util/DebugFlagsProps.lean`: sstmac/main/help.cc 85-89
* `Verif/Util/Mersenne.lean`: sstmac/common/mersenne_twister.cc 49-51, 56-57, 62-70, 66-69, 98-128, 104-118, 105-108, 109-113, 122-125, 133-164, 138-151, 152-161; sstmac/common/mersenne_twister.h
* `Verif/Util/Pool.lean`: sprockit/sprockit/thread_safe_new.h 74-200, 77-80, 78, 110-133, 139-155, 158, 158-185, 159-163, 165-179, 185
* `Verif/Util/Rng.lean`: sstmac/common/rng.h 92, 103-105, 116-134, 158-200, 164-170, 186-188, 216-238, 293-321, 307-309, 333-368, 358-360, 371-389, 423-430, 454-474, 487-517, 495-500; sstmac/common/rng.cc 55-56, 156-169, 212-220, 263-271, 345-364, 385-393, 467-473, 512-534, 536-544, 546-558; sstmac/hardware/router/router.cc 68-83, 68-115, 104-115
* `Verif/Util/Shuffle.lean`: sstmac/common/rng.h 73-82, 85-90, 103-105
